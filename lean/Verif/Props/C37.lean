import Verif.Lemmas.CallSides
set_option autoImplicit false
/-!
C37 Argument passing follows the System V ABI.

`callArgs ts n` is where a call puts arguments of types `ts` when the result has
`n` bytes (registers, or an offset from the stack pointer at the call), with the
final counters; `params ts n` is where a function finds its parameters.
-/
namespace Slimcc.Props
open Slimcc.CC Slimcc.SysV Slimcc.CCL

/-- The arguments are where the ABI puts them, for every list of types the code
treats regularly; `%al`, for a variadic function, is the number of vector
registers used. -/
theorem C37_abi (ts : List CTy) (retSize : Nat) (h : ∀ t ∈ ts, Regular t) :
    ∃ u, Passed ts (start (retSize > 16)) (callArgs ts retSize).1 u ∧
      (callArgs ts retSize).2.fpCount = u.sse ∧ (callArgs ts retSize).2.gpCount = u.int ∧
      (callArgs ts retSize).2.stack = u.stack := by
  have hb : b2n (decide (retSize > 16)) = (start (decide (retSize > 16))).int := by
    unfold b2n start; rfl
  have hrel : Rel { gp := b2n (retSize > 16), fp := 0 } (start (retSize > 16)) := by
    refine ⟨?_, rfl, rfl, ⟨0, rfl⟩⟩
    simp only [start, b2n]
    split <;> rfl
  obtain ⟨u, hp, hr⟩ := conv_ok ts h hrel
  refine ⟨u, ?_, hr.sse.symm, hr.int.symm, hr.stack.symm⟩
  rw [← hb] at hp
  exact hp

/-- The ABI's answer is unique, so this determines every location. -/
theorem C37_abi_determines {ts : List CTy} {retSize : Nat} {ls : List Loc} {u : Used}
    (h : ∀ t ∈ ts, Regular t) (hp : Passed ts (start (retSize > 16)) ls u) :
    (callArgs ts retSize).1 = ls := by
  obtain ⟨u', hp', -⟩ := C37_abi ts retSize h
  exact (passed_unique hp' hp).1

/-- A structure or union is returned through a hidden address exactly when the
ABI returns it in memory. -/
theorem C37_hidden {un : Bool} {s a : Nat} {ms : Mems} (h : Regular (.agg un s a ms)) :
    (CTy.agg un s a ms).size > 16 ↔ InMemory (.agg un s a ms) := by
  constructor
  · exact .inl
  · rintro (h1 | ⟨l, h1, h2⟩)
    · exact h1
    · refine Nat.not_le.mp (fun hle => ?_)
      obtain ⟨k1, k2⟩ := (h.plain ⟨un, s, a, ms, rfl⟩ hle).1 l h1
      exact h2.elim (fun h => h k1) (fun h => k2 h)

/-- No register carries two things, only the six and eight argument registers
are used, and they are used without gaps; whatever the types. -/
theorem C37_registers (ts : List CTy) (retSize : Nat) :
    (((callArgs ts retSize).1).flatMap regsOf).Nodup ∧
    (∀ n, Reg.gp n ∈ ((callArgs ts retSize).1).flatMap regsOf ↔
      (if retSize > 16 then 1 else 0) ≤ n ∧ n < (callArgs ts retSize).2.gpCount) ∧
    (∀ n, Reg.fp n ∈ ((callArgs ts retSize).1).flatMap regsOf ↔
      n < (callArgs ts retSize).2.fpCount) ∧
    (callArgs ts retSize).2.gpCount ≤ 6 ∧ (callArgs ts retSize).2.fpCount ≤ 8 := by
  rw [callArgs_walk]
  have s := walk_span ts { gp := b2n (retSize > 16), fp := 0 }
  have hb : min (b2n (decide (retSize > 16))) 6 = if retSize > 16 then 1 else 0 := by
    unfold b2n
    by_cases h : retSize > 16 <;> simp [h]
  simp only [hb, Nat.zero_min] at s
  refine ⟨s.nodup, s.gp, ?_, Nat.min_le_right _ _, Nat.min_le_right _ _⟩
  intro n
  rw [s.fp]
  simp [Cnt.fpCount, fpMax]

/-- Arguments on the stack follow one another without overlap, inside the area
that is made room for. -/
theorem C37_stack (ts : List CTy) (retSize : Nat) {i o : Nat} {t : CTy}
    (h : (callArgs ts retSize).1[i]? = some (.stack o)) (ht : ts[i]? = some t) :
    o + t.size ≤ (callArgs ts retSize).2.stack ∧
    ∀ (j o' : Nat), i < j → (callArgs ts retSize).1[j]? = some (.stack o') → o + t.size ≤ o' := by
  rw [callArgs_walk] at h ⊢
  exact (walk_stack ts _ i o t h ht).2

/-- With the stack pointer a multiple of 16 before the call it is so at the call,
every argument on the stack is aligned as its type demands, and the area lies
below what was on the stack before. -/
theorem C37_stack_aligned (ts : List CTy) (retSize sp : Nat) (hp : ∀ t ∈ ts, ∃ k, t.align = 2 ^ k)
    (hsp : 16 ∣ sp)
    (hroom : (callArgs ts retSize).2.stack + (callArgs ts retSize).2.maxAlign ≤ sp) :
    16 ∣ callSp sp (callArgs ts retSize).2 ∧
    callSp sp (callArgs ts retSize).2 + (callArgs ts retSize).2.stack ≤ sp ∧
    ∀ (i o : Nat) (t : CTy), (callArgs ts retSize).1[i]? = some (.stack o) → ts[i]? = some t →
      8 ∣ callSp sp (callArgs ts retSize).2 + o ∧
      (0 < t.size → t.align ∣ callSp sp (callArgs ts retSize).2 + o) := by
  rw [callArgs_walk] at hroom ⊢
  simp only at hroom ⊢
  obtain ⟨m1, m2, m3⟩ := after_maxAlign ts { gp := b2n (retSize > 16), fp := 0 } ⟨4, rfl⟩ hp
  have m2 : 16 ≤ (after ts { gp := b2n (retSize > 16), fp := 0 }).maxAlign := m2
  obtain ⟨d1, d2⟩ := callSp_dvd m1 m2 hsp
  have hp8 : ∀ t ∈ ts, t.align ≤ 8 ∨ 8 ∣ t.align := by
    intro t ht
    rcases Nat.lt_or_ge 8 t.align with h | h
    · exact .inr (pow_dvd_of_le ⟨3, rfl⟩ (hp t ht) (by omega))
    · exact .inl h
  refine ⟨d1, callSp_below hroom m2, ?_⟩
  intro i o t h ht
  obtain ⟨a1, a2⟩ := (walk_aligned ts _ hp8 ⟨0, rfl⟩).2 i o t h ht
  have h8 : 8 ∣ callSp sp (after ts { gp := b2n (retSize > 16), fp := 0 }) :=
    Nat.dvd_trans ⟨2, rfl⟩ d1
  refine ⟨Nat.dvd_add h8 a1, fun h0 => ?_⟩
  rcases Nat.lt_or_ge 8 t.align with hh | hh
  · have hm := m3 i o t h ht hh
    have hdm := pow_dvd_of_le (hp t (List.mem_of_getElem? ht)) m1 hm
    have hin := (walk_stack ts _ i o t h ht).2.1
    exact Nat.dvd_add (Nat.dvd_trans hdm (d2 (by omega))) (a2 hh)
  · have : t.align ∣ 8 := pow_dvd_of_le (hp t (List.mem_of_getElem? ht)) ⟨3, rfl⟩ hh
    exact Nat.dvd_trans this (Nat.dvd_add h8 a1)

/-- The callee looks where the caller puts: the same registers in the same order,
eightbyte `k` of the parameter being stored from the register it was loaded
into, all `t.size` bytes and no more; or the same address on the stack. -/
theorem C37_same_places (ts : List CTy) (retSize sp : Nat) (hsp : 16 ≤ sp) {i : Nat} {t : CTy}
    (ht : ts[i]? = some t)
    (hk : (∃ k a, t = .scalar k a ∧ ∀ n, k = .int n → n = 1 ∨ n = 2 ∨ n = 4 ∨ n = 8) ∨
      ∃ u s a ms, t = .agg u s a ms) (h0 : 0 < t.size) :
    (∃ parts, (callArgs ts retSize).1[i]? = some (.regs (parts.map (·.1))) ∧
      (params ts retSize).1[i]? = some (.stored parts) ∧
      parts.length = (t.size + 7) / 8 ∧
      ∀ (k : Nat) (r : Reg) (o n : Nat), parts[k]? = some (r, o, n) →
        o = 8 * k ∧ n = min 8 (t.size - 8 * k)) ∨
    ∃ o b, (callArgs ts retSize).1[i]? = some (.stack o) ∧
      (params ts retSize).1[i]? = some (.atRbp b) ∧ calleeRbp sp + b = sp + o := by
  rw [callArgs_walk, params_walk]
  rcases sides ts { gp := b2n (retSize > 16), fp := 0 } i t ht hk h0 with
    ⟨parts, h1, h2, h3⟩ | ⟨o, h1, h2⟩
  · exact .inl ⟨parts, h1, h2, h3.length, h3.at_⟩
  · exact .inr ⟨o, o + 16, h1, h2, by unfold calleeRbp; omega⟩

/-! ### Examples -/

def ccInt : CTy := .scalar (.int 4) 4
def ccLong : CTy := .scalar (.int 8) 8
def ccDbl : CTy := .scalar .double 8
/-- `struct { float x, y, z; }`. -/
def ccVec : CTy := .agg false 12 4 (.cons 0 (.scalar .float 4) (.cons 4 (.scalar .float 4)
  (.cons 8 (.scalar .float 4) .nil)))
/-- `struct { double d; struct { char c[3]; } s; }`. -/
def ccMix : CTy := .agg false 16 8 (.cons 0 ccDbl
  (.cons 8 (.agg false 3 1 (.cons 0 (.arr (.scalar (.int 1) 1) 3) .nil)) .nil))
/-- `struct { long a[3]; }`. -/
def ccBig : CTy := .agg false 24 8 (.cons 0 (.arr ccLong 3) .nil)

theorem regular_int : Regular ccInt :=
  ⟨.inl ⟨_, _, rfl, by intro n h; cases h; simp⟩, by simp [ccInt, WF, SK.size], by decide,
    .inl (by decide), by rintro ⟨u, s, a, ms, h⟩; cases h⟩
theorem regular_long : Regular ccLong :=
  ⟨.inl ⟨_, _, rfl, by intro n h; cases h; simp⟩, by simp [ccLong, WF, SK.size], by decide,
    .inl (by decide), by rintro ⟨u, s, a, ms, h⟩; cases h⟩
theorem regular_dbl : Regular ccDbl :=
  ⟨.inl ⟨_, _, rfl, by intro n h; cases h⟩, by simp [ccDbl, WF, SK.size], by decide,
    .inl (by decide), by rintro ⟨u, s, a, ms, h⟩; cases h⟩
theorem regular_vec : Regular ccVec :=
  ⟨.inr ⟨_, _, _, _, rfl⟩, by simp [ccVec, WF, WFm, SK.size, CTy.size], by decide,
    .inl (by decide), fun _ _ => ⟨by decide, by
      intro e he
      have : e = 0 ∨ e = 1 := by simp only [ccVec, CTy.size] at he; omega
      rcases this with rfl | rfl <;> decide⟩⟩
theorem regular_mix : Regular ccMix :=
  ⟨.inr ⟨_, _, _, _, rfl⟩, by simp [ccMix, ccDbl, WF, WFm, SK.size, CTy.size], by decide,
    .inl (by decide), fun _ _ => ⟨by decide, by
      intro e he
      have : e = 0 ∨ e = 1 := by simp only [ccMix, CTy.size] at he; omega
      rcases this with rfl | rfl <;> decide⟩⟩
theorem regular_big : Regular ccBig :=
  ⟨.inr ⟨_, _, _, _, rfl⟩, by simp [ccBig, ccLong, WF, WFm, SK.size, CTy.size], by decide,
    .inl (by decide), fun _ h => absurd h (by decide)⟩

/-- A call with every kind of argument, including a structure that no longer
fits and a smaller argument that still does. -/
def ccArgs : List CTy := [ccInt, ccVec, ccBig, ccMix, ccLong, ccLong, ccLong, ccMix, ccMix, ccInt]

example : ∀ t ∈ ccArgs, Regular t := by
  intro t ht
  simp only [ccArgs, List.mem_cons, List.not_mem_nil, or_false] at ht
  rcases ht with rfl | rfl | rfl | rfl | rfl | rfl | rfl | rfl | rfl | rfl
  all_goals first | exact regular_int | exact regular_vec | exact regular_big
                  | exact regular_mix | exact regular_long

example : (callArgs ccArgs 8).1 =
    [.regs [.gp 0], .regs [.fp 0, .fp 1], .stack 0, .regs [.fp 2, .gp 1], .regs [.gp 2],
     .regs [.gp 3], .regs [.gp 4], .regs [.fp 3, .gp 5], .stack 24, .stack 40] := by decide
example : (params ccArgs 8).1[7]? = some (.stored [(.fp 3, 0, 8), (.gp 5, 8, 8)]) := by decide
example : (params ccArgs 8).1[9]? = some (.atRbp 56) := by decide
example : (params [ccVec] 8).1 = [.stored [(.fp 0, 0, 8), (.fp 1, 8, 4)]] := by decide
/-- A large result takes the first register. -/
example : (callArgs [ccInt] 24).1 = [.regs [.gp 1]] := by decide
example : (callArgs ccArgs 8).2.gpCount = 6 ∧ (callArgs ccArgs 8).2.fpCount = 4 :=
  ⟨by decide, by decide⟩
/-- An over-aligned structure. -/
def ccOver : CTy := .agg false 64 64 (.cons 0 ccLong .nil)
example : (callArgs [ccBig, ccOver] 0).1 = [.stack 0, .stack 64] ∧
    callSp 4096 (callArgs [ccBig, ccOver] 0).2 = 3968 := ⟨by decide, by decide⟩

/-! ### Departures from the ABI -/

/-- `struct { long double x; }` goes in two integer registers; the ABI passes it
in memory. -/
def ccLd : CTy := .agg false 16 16 (.cons 0 (.scalar .ldouble 16) .nil)

theorem C37_long_double_member :
    (callArgs [ccLd] 0).1 = [.regs [.gp 0, .gp 1]] ∧
    ∀ ls u, Passed [ccLd] (start false) ls u → ls = [.stack 0] := by
  refine ⟨by decide, ?_⟩
  intro ls u h
  have hm : InMemory ccLd := .inr ⟨(0, .ldouble), by decide, .inr rfl⟩
  have : Passed [ccLd] (start false) [.stack 0] _ := .cons (.stack (.inl hm)) (.nil _)
  exact (passed_unique h this).1

/-- `struct { _Alignas(16) int x; }`: its second eightbyte is padding, for which
the ABI uses no register.  The code gives it a vector register, so that a
following `double` is not where a function compiled by another compiler looks. -/
def ccPad : CTy := .agg false 16 16 (.cons 0 ccInt .nil)

theorem C37_padding_takes_register :
    (callArgs [ccPad, ccDbl] 0).1 = [.regs [.gp 0, .fp 0], .regs [.fp 1]] ∧
    ∀ ls u, Passed [ccPad, ccDbl] (start false) ls u → ls = [.regs [.gp 0], .regs [.fp 0]] := by
  refine ⟨by decide, ?_⟩
  intro ls u h
  have h1 : ¬ InMemory ccPad := by
    rintro (h | ⟨l, h1, h2⟩)
    · exact absurd h (by decide)
    · rw [show leaves ccPad 0 = [(0, .int 4)] by decide, List.mem_singleton] at h1
      subst h1
      rcases h2 with h2 | h2
      · exact h2 rfl
      · cases h2
  have h2 : ¬ InMemory ccDbl := by
    rintro (h | ⟨l, h1, h2⟩)
    · exact absurd h (by decide)
    · rw [show leaves ccDbl 0 = [(0, .double)] by decide, List.mem_singleton] at h1
      subst h1
      rcases h2 with h2 | h2
      · exact h2 rfl
      · cases h2
  have : Passed [ccPad, ccDbl] (start false) [.regs [.gp 0], .regs [.fp 0]] _ :=
    .cons (.regs h1 (by decide) (by decide)) (.cons (.regs h2 (by decide) (by decide)) (.nil _))
  exact (passed_unique h this).1

/-- A packed `struct { char c; int n; }` goes in a register; the ABI passes an
aggregate with an unaligned field in memory. -/
def ccPacked : CTy := .agg false 5 1 (.cons 0 (.scalar (.int 1) 1) (.cons 1 (.scalar (.int 4) 1) .nil))

theorem C37_unaligned_member :
    (callArgs [ccPacked] 0).1 = [.regs [.gp 0]] ∧
    ∀ ls u, Passed [ccPacked] (start false) ls u → ls = [.stack 0] := by
  refine ⟨by decide, ?_⟩
  intro ls u h
  have hm : InMemory ccPacked := .inr ⟨(1, .int 4), by decide, .inl (by decide)⟩
  have : Passed [ccPacked] (start false) [.stack 0] _ := .cons (.stack (.inl hm)) (.nil _)
  exact (passed_unique h this).1

end Slimcc.Props
