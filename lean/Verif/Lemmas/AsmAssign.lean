/-
Handing out registers, and the registers kept aside.
-/
import Verif.Lemmas.AsmRun
set_option autoImplicit false

namespace Slimcc.AsmL
open Slimcc.Asm Slimcc.AsmSpec

/-- The register is in use. -/
def Taken (s : St) (r : Reg) : Prop := s.inU r = true ∨ s.outU r = true

theorem getUse_free {s : St} {o : Op} {r : Reg} (hk : o.kind = .none) (h : getUse s o r = false) :
    s.inU r = false ∧ (IsOutput o.cons → s.outU r = false) := by
  unfold getUse at h
  split at h
  · rename_i hm
    refine ⟨h, fun ho => ?_⟩
    rcases ho with ho | ho
    · exact absurd ho hm.1
    · exact absurd ho hm.2
  · rw [if_neg (by rw [hk]; simp)] at h
    rw [Bool.or_eq_false_iff] at h
    exact ⟨h.1, fun _ => h.2⟩

theorem getUse_taken {s : St} {o : Op} {r : Reg} (h : getUse s o r = true) : Taken s r := by
  unfold getUse at h
  split at h
  · exact .inl h
  · split at h
    · exact .inr h
    · rw [Bool.or_eq_true] at h
      exact h

/-- Registers are only ever added. -/
structure Grow (s s' : St) : Prop where
  cnt : s'.cnt = s.cnt
  keep : ∀ j, (s.ops j).kind ≠ .none → s'.ops j = s.ops j
  inU : ∀ r, s.inU r = true → s'.inU r = true
  outU : ∀ r, s.outU r = true → s'.outU r = true

theorem Grow.refl (s : St) : Grow s s := ⟨rfl, fun _ _ => rfl, fun _ h => h, fun _ h => h⟩

theorem Grow.trans {s s' s'' : St} (h : Grow s s') (g : Grow s' s'') : Grow s s'' :=
  ⟨g.cnt.trans h.cnt, fun j hj => by
    rw [g.keep j (by rw [h.keep j hj]; exact hj), h.keep j hj],
   fun r hr => g.inU r (h.inU r hr), fun r hr => g.outU r (h.outU r hr)⟩

theorem Grow.taken {s s' : St} (h : Grow s s') {r : Reg} (ht : Taken s r) : Taken s' r := by
  rcases ht with ht | ht
  · exact .inl (h.inU r ht)
  · exact .inr (h.outU r ht)

theorem Grow.none_ {s s' : St} (h : Grow s s') {j : Nat} (hj : (s'.ops j).kind = .none) :
    (s.ops j).kind = .none := by
  refine Classical.byContradiction fun hn => hn ?_
  rw [← h.keep j hn]
  exact hj

theorem Put.grow {cons : Nat → List Char} {s s' : St} {i : Nat} {r : Reg} {t : Option Nat}
    (p : Put cons s s' i r t) : Grow s s' :=
  ⟨p.cnt, fun _ hj => p.keep hj, p.inKeep, p.outKeep⟩

theorem place_inv {cons : Nat → List Char} {arg : Nat → Arg} {cl : List Clob}
    {P : Nat → Prop} {s : St} {i : Nat} {k : Kind} {r : Reg}
    (h : Inv cons arg cl P s) (hd : Distinct cons arg cl s) (hPi : P i)
    (hn : (s.ops i).kind = .none) (hu : getUse s (s.ops i) r = false)
    (hfit : (k = .reg ∧ Allowed (cons i) r) ∨
      (k = .mem ∧ AllowsMemory (cons i) ∧ rAX ≤ r ∧ r ≤ rR15)) :
    Inv cons arg cl P (place s i k r) ∧ Distinct cons arg cl (place s i k r) ∧
      Grow s (place s i k r) ∧ ((place s i k r).ops i).kind ≠ .none := by
  have hfl := h.flags i hPi (by rw [hn]; simp)
  have h0 : rAX ≤ r → r ≠ 0 := by
    intro h1 h2
    rw [h2] at h1
    exact absurd h1 (by decide)
  obtain ⟨t, p, hop⟩ := setUse_put (cons := cons) (s := s) (i := i)
    (o := { s.ops i with reg := r, kind := k }) hn rfl (h.consEq i) rfl rfl (by
      rcases hfit with ⟨hk, -⟩ | ⟨hk, -, h1, -⟩
      · exact .inl hk
      · exact .inr ⟨hk, h0 h1⟩)
    ⟨hfl.mem, hfl.gp, hfl.fp, hfl.x87, hfl.early, hfl.high, hfl.legacy, hfl.free⟩
  obtain ⟨g1, g2⟩ := getUse_free hn hu
  have hop : (place s i k r).ops i = { s.ops i with reg := r, kind := k } := hop
  have p : Put cons s (place s i k r) i r t := p
  refine ⟨put_inv h p ?_ ?_ ?_ ?_, put_distinct h p g1 (by rw [← h.consEq i]; exact g2) hd,
    p.grow, register_kind p.register⟩
  · intro j
    constructor
    · exact .inl
    · rintro (hj | rfl)
      · exact hj
      · exact hPi
  · rw [hop]
    exact ⟨hfl.mem, hfl.gp, hfl.fp, hfl.x87, hfl.early, hfl.high, hfl.legacy, hfl.free⟩
  · rw [hop]
    rcases hfit with ⟨rfl, ha⟩ | ⟨rfl, hm, h1, h2⟩
    · exact .inl ⟨rfl, .inr ha⟩
    · refine .inr ⟨?_, hm, h1, h2⟩
      simp [placeOf, h0 h1]
  · intro r' ha
    exact absurd ha (h.unasked i hPi hn r')

/-! ### The passes for the small register sets -/

theorem assign2One_inv {cons : Nat → List Char} {arg : Nat → Arg} {cl : List Clob}
    {P : Nat → Prop} {s : St} {i : Nat} {regs : List Reg} {sel : Op → Bool} {x : Char}
    (h : Inv cons arg cl P s) (hd : Distinct cons arg cl s) (hPi : P i)
    (hsel : ∀ o, Flags (cons i) o → (sel o = true ↔ x ∈ cons i))
    (hal : ∀ r ∈ regs, ∀ c : List Char, x ∈ c → Allowed c r) :
    Inv cons arg cl P (assign2One regs sel i s) ∧ Distinct cons arg cl (assign2One regs sel i s) ∧
      Grow s (assign2One regs sel i s) ∧
      (((assign2One regs sel i s).ops i).kind = .none → x ∈ cons i →
        ∀ r ∈ regs, Taken (assign2One regs sel i s) r) := by
  unfold assign2One
  simp only
  split
  · rename_i hs
    refine ⟨h, hd, Grow.refl s, fun hk hx => ?_⟩
    rcases hs with hs | hs
    · exact absurd hk hs
    · have := (hsel _ (h.flags i hPi (by rw [hk]; simp))).mpr hx
      rw [hs] at this
      cases this
  · rename_i hs
    have hk : (s.ops i).kind = .none := Classical.byContradiction fun e => hs (.inl e)
    have hx : x ∈ cons i := by
      refine (hsel _ (h.flags i hPi (by rw [hk]; simp))).mp ?_
      cases hh : sel (s.ops i) with
      | true => rfl
      | false => exact absurd (.inr hh) hs
    split
    · rename_i r hr
      have hmem := List.mem_of_find?_eq_some hr
      have hu := List.find?_some hr
      simp only [Bool.not_eq_true'] at hu
      obtain ⟨h1, h2, h3, h4⟩ := place_inv h hd hPi hk hu (.inl ⟨rfl, hal r hmem _ hx⟩)
      exact ⟨h1, h2, h3, fun e => absurd e h4⟩
    · rename_i hr
      refine ⟨h, hd, Grow.refl s, fun _ _ r hmem => ?_⟩
      have := List.find?_eq_none.mp hr r hmem
      simp only [Bool.not_eq_true', Bool.not_eq_false] at this
      exact getUse_taken this

theorem assign2_inv {cons : Nat → List Char} {arg : Nat → Arg} {cl : List Clob}
    {P : Nat → Prop} {regs : List Reg} {sel : Op → Bool} {x : Char}
    (hsel : ∀ c o, Flags c o → (sel o = true ↔ x ∈ c))
    (hal : ∀ r ∈ regs, ∀ c : List Char, x ∈ c → Allowed c r) (is : List Nat) :
    ∀ {s : St}, Inv cons arg cl P s → Distinct cons arg cl s → (∀ i ∈ is, P i) →
      Inv cons arg cl P (assign2 regs sel is s) ∧ Distinct cons arg cl (assign2 regs sel is s) ∧
        Grow s (assign2 regs sel is s) ∧
        (∀ i ∈ is, ((assign2 regs sel is s).ops i).kind = .none → x ∈ cons i →
          ∀ r ∈ regs, Taken (assign2 regs sel is s) r) := by
  induction is with
  | nil =>
    intro s h hd _
    exact ⟨h, hd, Grow.refl s, by simp⟩
  | cons i is ih =>
    intro s h hd hP
    obtain ⟨h1, h2, h3, h4⟩ := assign2One_inv (regs := regs) (sel := sel) h hd (hP i (by simp))
      (hsel (cons i)) hal
    obtain ⟨g1, g2, g3, g4⟩ := ih h1 h2 (fun j hj => hP j (by simp [hj]))
    rw [assign2]
    refine ⟨g1, g2, h3.trans g3, fun j hj hk hx r hr => ?_⟩
    rcases List.mem_cons.mp hj with rfl | hj
    · exact g3.taken (h4 (g3.none_ hk) hx r hr)
    · exact g4 j hj hk hx r hr

/-! ### The last pass -/

theorem findFree_some {s : St} {o : Op} {lo hi r : Reg} (h : findFree s o lo hi = some r) :
    getUse s o r = false ∧ lo ≤ r ∧ r ≤ hi := by
  unfold findFree at h
  have h1 := List.find?_some h
  have h2 := List.mem_range'_1.mp (List.mem_of_find?_eq_some h)
  simp only [Bool.not_eq_true'] at h1
  refine ⟨h1, h2.1, ?_⟩
  have := h2.2
  simp only [Reg] at *
  omega

theorem findFree_none {s : St} {o : Op} {lo hi : Reg} (h : findFree s o lo hi = none) :
    ∀ r, lo ≤ r → r ≤ hi → Taken s r := by
  intro r h1 h2
  unfold findFree at h
  have := List.find?_eq_none.mp h r (List.mem_range'_1.mpr ⟨h1, by simp only [Reg] at *; omega⟩)
  simp only [Bool.not_eq_true', Bool.not_eq_false] at this
  exact getUse_taken this

theorem findAny_some {s : St} {o : Op} {c : List Char} {r : Reg} (hf : Flags c o)
    (h : findAny s o = some r) : getUse s o r = false ∧ Allowed c r := by
  unfold findAny at h
  split at h
  · rename_i q hq
    cases h
    split at hq
    · rename_i hfp
      obtain ⟨h1, h2, h3⟩ := findFree_some hq
      exact ⟨h1, .inr (.inr (.inr (.inr (.inl ⟨hf.fp.mp hfp, h2, h3⟩))))⟩
    · cases hq
  · split at h
    · rename_i q hq
      cases h
      split at hq
      · rename_i hx
        obtain ⟨h1, h2, h3⟩ := findFree_some hq
        exact ⟨h1, .inr (.inr (.inr (.inr (.inr ⟨hf.x87.mp hx, h2, h3⟩))))⟩
      · cases hq
    · split at h
      · rename_i hg
        obtain ⟨h1, h2, h3⟩ := findFree_some h
        exact ⟨h1, .inl ⟨hf.gp.mp hg, h2, h3⟩⟩
      · cases h

theorem findAny_none {s : St} {o : Op} {c : List Char} (hf : Flags c o)
    (h : findAny s o = none) :
    ((('r' ∈ c ∨ 'q' ∈ c ∨ 'g' ∈ c ∨ 'X' ∈ c) → ∀ r, rAX ≤ r → r ≤ rR15 → Taken s r)) ∧
    ((('x' ∈ c ∨ 'v' ∈ c ∨ 'X' ∈ c) → ∀ r, rXMM0 ≤ r → r ≤ rXMM15 → Taken s r)) ∧
    ('f' ∈ c → ∀ r, rST0 ≤ r → r ≤ rST7 → Taken s r) := by
  unfold findAny at h
  split at h
  · cases h
  · rename_i h1
    split at h
    · cases h
    · rename_i h2
      refine ⟨fun hc => ?_, fun hc => ?_, fun hc => ?_⟩
      · rw [if_pos (hf.gp.mpr hc)] at h
        exact findFree_none h
      · rw [if_pos (hf.fp.mpr hc)] at h1
        exact findFree_none h1
      · rw [if_pos (hf.x87.mpr hc)] at h2
        exact findFree_none h2

/-- Every register that would do, and memory if that would do, is out of
reach. -/
structure Stuck (c : List Char) (s : St) : Prop where
  main : ((('r' ∈ c ∨ 'q' ∈ c ∨ 'g' ∈ c ∨ 'X' ∈ c) → ∀ r, rAX ≤ r → r ≤ rR15 → Taken s r)) ∧
    ((('x' ∈ c ∨ 'v' ∈ c ∨ 'X' ∈ c) → ∀ r, rXMM0 ≤ r → r ≤ rXMM15 → Taken s r)) ∧
    ('f' ∈ c → ∀ r, rST0 ≤ r → r ≤ rST7 → Taken s r)
  mem : AllowsMemory c → ∀ r, rAX ≤ r → r ≤ rR15 → Taken s r

theorem assignAll_inv {cons : Nat → List Char} {arg : Nat → Arg} {cl : List Clob}
    {P : Nat → Prop} (is : List Nat) :
    ∀ {s : St}, Inv cons arg cl P s → Distinct cons arg cl s → (∀ i ∈ is, P i) →
      (∀ s', assignAll is s = .ok s' → Inv cons arg cl P s' ∧ Distinct cons arg cl s' ∧
        Grow s s' ∧ ∀ i ∈ is, (s'.ops i).kind ≠ .none) ∧
      (∀ x, assignAll is s = .error x → ∃ i s', x = .cannotAssign i s' ∧ i ∈ is ∧
        Inv cons arg cl P s' ∧ Grow s s' ∧ (s'.ops i).kind = .none ∧ Stuck (cons i) s') := by
  induction is with
  | nil =>
    intro s h hd _
    refine ⟨fun s' e => ?_, fun x e => ?_⟩
    · cases e
      exact ⟨h, hd, Grow.refl s, by simp⟩
    · cases e
  | cons i is ih =>
    intro s h hd hP
    have hPi := hP i (by simp)
    -- one operand
    have one : (∀ s₁, assignOne i s = .ok s₁ → Inv cons arg cl P s₁ ∧ Distinct cons arg cl s₁ ∧
          Grow s s₁ ∧ (s₁.ops i).kind ≠ .none) ∧
        (∀ x, assignOne i s = .error x → x = .cannotAssign i s ∧ (s.ops i).kind = .none ∧
          Stuck (cons i) s) := by
      unfold assignOne
      simp only
      by_cases hk : (s.ops i).kind = .none
      · rw [if_neg (by simpa using hk)]
        have hfl := h.flags i hPi (by rw [hk]; simp)
        cases hfa : findAny s (s.ops i) with
        | some r =>
          obtain ⟨hu, hal⟩ := findAny_some hfl hfa
          refine ⟨fun s₁ e => ?_, fun x e => by cases e⟩
          cases e
          exact place_inv h hd hPi hk hu (.inl ⟨rfl, hal⟩)
        | none =>
          simp only
          by_cases hm : (s.ops i).isMem = true
          · rw [if_pos hm]
            cases hff : findFree s (s.ops i) rAX rR15 with
            | some r =>
              obtain ⟨hu, h1, h2⟩ := findFree_some hff
              refine ⟨fun s₁ e => ?_, fun x e => by cases e⟩
              cases e
              exact place_inv h hd hPi hk hu (.inr ⟨rfl, hfl.mem.mp hm, h1, h2⟩)
            | none =>
              refine ⟨(fun s₁ e => by cases e), fun x e => ?_⟩
              cases e
              exact ⟨rfl, hk, findAny_none hfl hfa, fun _ => findFree_none hff⟩
          · rw [if_neg hm]
            refine ⟨(fun s₁ e => by cases e), fun x e => ?_⟩
            cases e
            exact ⟨rfl, hk, findAny_none hfl hfa, fun ha => absurd (hfl.mem.mpr ha) hm⟩
      · rw [if_pos hk]
        refine ⟨fun s₁ e => ?_, fun x e => by cases e⟩
        cases e
        exact ⟨h, hd, Grow.refl s, hk⟩
    rw [assignAll]
    cases hx : assignOne i s with
    | error y =>
      refine ⟨(fun s' e => by cases e), fun x e => ?_⟩
      cases e
      obtain ⟨rfl, hk, hst⟩ := one.2 y hx
      exact ⟨i, s, rfl, by simp, h, Grow.refl s, hk, hst⟩
    | ok s₁ =>
      obtain ⟨h1, h2, h3, h4⟩ := one.1 s₁ hx
      obtain ⟨g1, g2⟩ := ih h1 h2 (fun j hj => hP j (by simp [hj]))
      refine ⟨fun s' e => ?_, fun x e => ?_⟩
      · obtain ⟨k1, k2, k3, k4⟩ := g1 s' e
        refine ⟨k1, k2, h3.trans k3, fun j hj => ?_⟩
        rcases List.mem_cons.mp hj with rfl | hj
        · rw [k3.keep _ h4]; exact h4
        · exact k4 j hj
      · obtain ⟨j, s', rfl, k1, k2, k3, k4⟩ := g2 x e
        exact ⟨j, s', rfl, by simp [k1], k2, h3.trans k3, k4⟩

theorem assign_inv {cons : Nat → List Char} {arg : Nat → Arg} {cl : List Clob} {s : St}
    (h : Inv cons arg cl (fun i => i < s.cnt) s) (hd : Distinct cons arg cl s) :
    (∀ s', assignOperands s = .ok s' → Inv cons arg cl (fun i => i < s.cnt) s' ∧
        Distinct cons arg cl s' ∧ s'.cnt = s.cnt ∧ ∀ i, i < s.cnt → (s'.ops i).kind ≠ .none) ∧
      (∀ x, assignOperands s = .error x → ∃ i s', x = .cannotAssign i s' ∧ i < s.cnt ∧
        Inv cons arg cl (fun i => i < s.cnt) s' ∧ (s'.ops i).kind = .none ∧
        (∀ r, Allowed (cons i) r → Taken s' r) ∧
        (AllowsMemory (cons i) → ∀ r, rAX ≤ r → r ≤ rR15 → Taken s' r)) := by
  have hr : ∀ i ∈ List.range s.cnt, i < s.cnt := fun i hi => List.mem_range.mp hi
  obtain ⟨a1, a2, a3, a4⟩ := assign2_inv (regs := highbyteRegs) (sel := (·.high)) (x := 'Q')
    (fun c o hf => hf.high) (fun r hr c hc => .inr (.inl ⟨hc, by
      revert hr; simp only [highbyteRegs, List.mem_cons, List.not_mem_nil, or_false]
      rintro (h | h | h | h) <;> simp [h]⟩)) (List.range s.cnt) h hd hr
  obtain ⟨b1, b2, b3, b4⟩ := assign2_inv (regs := legacyRegs) (sel := (·.legacy)) (x := 'R')
    (fun c o hf => hf.legacy) (fun r hr c hc => .inr (.inr (.inl ⟨hc, by
      revert hr; simp only [legacyRegs, List.mem_cons, List.not_mem_nil, or_false]
      rintro (h | h | h | h | h | h | h) <;> simp [h]⟩))) (List.range s.cnt) a1 a2 hr
  obtain ⟨c1, c2, c3, c4⟩ := assign2_inv (regs := freeRegs) (sel := (·.free)) (x := 'U')
    (fun c o hf => hf.free) (fun r hr c hc => .inr (.inr (.inr (.inl ⟨hc, by
      revert hr; simp only [freeRegs, List.mem_cons, List.not_mem_nil, or_false]
      rintro (h | h | h | h | h | h | h | h | h) <;> rw [h] <;> decide⟩))))
    (List.range s.cnt) b1 b2 hr
  obtain ⟨d1, d2⟩ := assignAll_inv (List.range s.cnt) c1 c2 hr
  unfold assignOperands
  refine ⟨fun s' e => ?_, fun x e => ?_⟩
  · obtain ⟨e1, e2, e3, e4⟩ := d1 s' e
    exact ⟨e1, e2, e3.cnt.trans (c3.cnt.trans (b3.cnt.trans a3.cnt)),
      fun i hi => e4 i (List.mem_range.mpr hi)⟩
  · obtain ⟨i, s', rfl, e1, e2, e3, e4, e5⟩ := d2 x e
    refine ⟨i, s', rfl, hr i e1, e2, e4, ?_, e5.mem⟩
    intro r hal
    rcases hal with ⟨hc, h1, h2⟩ | ⟨hc, h1⟩ | ⟨hc, h1⟩ | ⟨hc, h1, h2⟩ | ⟨hc, h1, h2⟩ | ⟨hc, h1, h2⟩
    · exact e5.main.1 hc r h1 h2
    · refine e3.taken (c3.taken (b3.taken (a4 i e1 (b3.none_ (c3.none_ (e3.none_ e4))) hc r ?_)))
      simp only [highbyteRegs, List.mem_cons, List.not_mem_nil, or_false] at h1 ⊢
      rcases h1 with h | h | h | h <;> simp [h]
    · refine e3.taken (c3.taken (b4 i e1 (c3.none_ (e3.none_ e4)) hc r ?_))
      simp only [legacyRegs, List.mem_cons, List.not_mem_nil, or_false] at h1 ⊢
      rcases h1 with h | h | h | h | h | h | h <;> simp [h]
    · refine e3.taken (c4 i e1 (e3.none_ e4) hc r ?_)
      simp only [freeRegs, List.mem_cons, List.not_mem_nil, or_false]
      clear e5 e4 e3 e2 e1 d1 d2 c4 c3 c2 c1 b1 b2 b3 b4 a1 a2 a3 a4 h hd hr e hc
      romega
    · exact e5.main.2.1 hc r h1 h2
    · exact e5.main.2.2 hc r h1 h2

/-! ### Registers kept aside -/

theorem acquire_ok {use : Reg → Bool} {r : Reg} (h : acquire use = .ok r) :
    use r = false ∧ rAX ≤ r ∧ r ≤ rR15 := by
  unfold acquire at h
  split at h
  · rename_i q hq
    cases h
    have h1 := List.find?_some hq
    have h2 := List.mem_range'_1.mp (List.mem_of_find?_eq_some hq)
    simp only [Bool.not_eq_true'] at h1
    refine ⟨h1, h2.1, ?_⟩
    have := h2.2
    romega
  · cases h

theorem altFor_ok {r : Reg} {s s' : St} {a : Option Reg} (h : altFor r s = .ok (a, s')) :
    s'.ops = s.ops ∧ s'.cnt = s.cnt ∧ (a.isSome ↔ Taken s r) ∧
      (∀ q, a = some q → ¬ Taken s q ∧ rAX ≤ q ∧ q ≤ rR15) ∧
      (∀ q, s'.inU q = true ↔ s.inU q = true ∨ a = some q) ∧
      (∀ q, s'.outU q = true ↔ s.outU q = true ∨ a = some q) := by
  unfold altFor at h
  split at h
  · rename_i hu
    rw [Bool.or_eq_true] at hu
    simp only [bind, Except.bind, pure, Except.pure] at h
    split at h
    · cases h
    · rename_i q hq
      cases h
      obtain ⟨h1, h2, h3⟩ := acquire_ok hq
      simp only [Bool.or_eq_false_iff] at h1
      refine ⟨rfl, rfl, ⟨fun _ => hu, fun _ => rfl⟩, ?_, ?_, ?_⟩
      · intro p hp
        cases hp
        refine ⟨?_, h2, h3⟩
        rintro (h | h)
        · rw [h1.1] at h; cases h
        · rw [h1.2] at h; cases h
      · intro p
        simp only [both, Option.some.injEq]
        constructor
        · intro hp
          rcases setAt_new hp with h | h
          · exact .inl h
          · exact .inr h.symm
        · rintro (h | h)
          · exact setAt_keep _ _ h
          · rw [h, setAt_same]
      · intro p
        simp only [both, Option.some.injEq]
        constructor
        · intro hp
          rcases setAt_new hp with h | h
          · exact .inl h
          · exact .inr h.symm
        · rintro (h | h)
          · exact setAt_keep _ _ h
          · rw [h, setAt_same]
  · rename_i hu
    cases h
    refine ⟨rfl, rfl, ⟨(fun h => by cases h), fun h => ?_⟩, (fun q hq => by cases hq), ?_, ?_⟩
    · exact absurd (by rw [Bool.or_eq_true]; exact h) hu
    · simp
    · simp

end Slimcc.AsmL
