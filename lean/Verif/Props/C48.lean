import Verif.Lemmas.AsmAssign
set_option autoImplicit false
/-!
C48 Inline-asm operands get registers that fit and do not collide.

`prepare outs ins cl` is the compiler's choice for an `asm` statement with the
outputs `outs`, the inputs `ins` (each a constraint and what matters of the
expression) and the clobbers `cl`; `placed outs ins p.st` reads the choice as
the specification sees it.
-/
namespace Slimcc.Props
open Slimcc.Asm Slimcc.AsmSpec Slimcc.AsmL

/-- The operands of the statement, outputs first, where the compiler has put
them. -/
def placed (outs ins : List (List Char × Arg)) (s : St) : Placed :=
  { count := (outs ++ ins).length
    cons := fun i => (((outs ++ ins)[i]?).map (·.1)).getD []
    arg := fun i => (((outs ++ ins)[i]?).map (·.2)).getD {}
    at_ := fun i => placeOf (s.ops i) }

/-- Some operand of the statement is in `r`, or has its address there. -/
def HeldBy (p : Placed) (r : Reg) : Prop := ∃ i, i < p.count ∧ (p.at_ i).register = some r

/-- The steps of `prepare`. -/
theorem prepare_steps {outs ins : List (List Char × Arg)} {cl : List Clob} {p : Plan}
    (h : prepare outs ins cl = .ok p) :
    ∃ s₀ s₁ s₂ s₃ s₄, readOperands outs ins cl = .ok s₀ ∧ assignOperands s₀ = .ok s₁ ∧
      altFor rBP s₁ = .ok (p.alt1, s₂) ∧ altFor rBX s₂ = .ok (p.alt2, s₃) ∧
      tmpFor outs.length p.alt1 p.alt2 s₃ = .ok (p.tmp, s₄) ∧ p.st = s₄ ∧
      p.saved = fun r => (rR12 ≤ r && r ≤ rBP) && (s₄.inU r || s₄.outU r) := by
  unfold prepare at h
  simp only [bind, Except.bind, pure, Except.pure] at h
  split at h
  · cases h
  rename_i s₀ h0
  split at h
  · cases h
  rename_i s₁ h1
  split at h
  · cases h
  rename_i x h2
  obtain ⟨a₁, s₂⟩ := x
  simp only at h
  split at h
  · cases h
  rename_i x h3
  obtain ⟨a₂, s₃⟩ := x
  simp only at h
  split at h
  · cases h
  rename_i x h4
  obtain ⟨t, s₄⟩ := x
  simp only at h
  cases h
  exact ⟨s₀, s₁, s₂, s₃, s₄, h0, h1, h2, h3, h4, rfl, rfl⟩

theorem tmpFor_ok {n : Nat} {a₁ a₂ t : Option Reg} {s s' : St}
    (h : tmpFor n a₁ a₂ s = .ok (t, s')) :
    s'.ops = s.ops ∧ s'.inU = s.inU ∧ (t.isSome ↔ n ≠ 0) ∧
      (∀ r, s.outU r = true → s'.outU r = true) ∧
      (∀ q, t = some q → s.outU q = false ∧
        ((q = rBP ∧ a₁.isSome) ∨ (q = rBX ∧ a₂.isSome) ∨
          (rAX ≤ q ∧ q ≤ rR15 ∧ s'.outU q = true))) := by
  unfold tmpFor at h
  split at h
  · rename_i hn
    cases h
    exact ⟨rfl, rfl, by simp [hn], fun _ h => h, fun q hq => by cases hq⟩
  · rename_i hn
    split at h
    · rename_i hc
      cases h
      simp only [Bool.and_eq_true, Bool.not_eq_true'] at hc
      refine ⟨rfl, rfl, by simp [hn], fun _ h => h, fun q hq => ?_⟩
      cases hq
      exact ⟨hc.2, .inl ⟨rfl, hc.1⟩⟩
    · split at h
      · rename_i hc
        cases h
        simp only [Bool.and_eq_true, Bool.not_eq_true'] at hc
        refine ⟨rfl, rfl, by simp [hn], fun _ h => h, fun q hq => ?_⟩
        cases hq
        exact ⟨hc.2, .inr (.inl ⟨rfl, hc.1⟩)⟩
      · simp only [bind, Except.bind, pure, Except.pure] at h
        split at h
        · cases h
        · rename_i r hr
          cases h
          obtain ⟨h1, h2, h3⟩ := acquire_ok hr
          refine ⟨rfl, rfl, by simp [hn], fun q hq => setAt_keep _ _ hq, fun q hq => ?_⟩
          cases hq
          exact ⟨h1, .inr (.inr ⟨h2, h3, setAt_same _ _ _⟩)⟩

/-- What is known about the operands of an accepted statement. -/
theorem prepare_inv {outs ins : List (List Char × Arg)} {cl : List Clob} {p : Plan}
    (h : prepare outs ins cl = .ok p) :
    ∃ s₁ s₂ s₃ : St,
      Inv (consOf (outs ++ ins)) (argOf (outs ++ ins)) cl (fun i => i < (outs ++ ins).length) s₁ ∧
      Distinct (consOf (outs ++ ins)) (argOf (outs ++ ins)) cl s₁ ∧
      (∀ i, i < (outs ++ ins).length → (s₁.ops i).kind ≠ .none) ∧ p.st.ops = s₁.ops ∧
      altFor rBP s₁ = .ok (p.alt1, s₂) ∧ altFor rBX s₂ = .ok (p.alt2, s₃) ∧
      tmpFor outs.length p.alt1 p.alt2 s₃ = .ok (p.tmp, p.st) ∧
      p.saved = fun r => (rR12 ≤ r && r ≤ rBP) && (p.st.inU r || p.st.outU r) := by
  obtain ⟨s₀, s₁, s₂, s₃, s₄, h0, h1, h2, h3, h4, rfl, h6⟩ := prepare_steps h
  obtain ⟨a1, a2, a3⟩ := read_inv h0
  obtain ⟨b1, b2, b3, b4⟩ := (assign_inv (by rw [a3]; exact a1) (distinct_of_explicit a2)).1 s₁ h1
  rw [a3] at b1 b4
  refine ⟨s₁, s₂, s₃, b1, b2, b4, ?_, h2, h3, h4, h6⟩
  rw [(tmpFor_ok h4).1, (altFor_ok h3).1, (altFor_ok h2).1]

/-- **Operands that cannot share a register do not**, unless the user said so:
by tying one to the other, or by naming the registers of both. -/
theorem C48_distinct {outs ins : List (List Char × Arg)} {cl : List Clob} {p : Plan}
    (h : prepare outs ins cl = .ok p) {i j : Nat} {r : Reg} (hij : i ≠ j)
    (hi : ((placed outs ins p.st).at_ i).register = some r)
    (hj : ((placed outs ins p.st).at_ j).register = some r)
    (hm : MustDiffer ((placed outs ins p.st).cons i) ((placed outs ins p.st).at_ i)
      ((placed outs ins p.st).cons j) ((placed outs ins p.st).at_ j)) :
    TiedTo ((placed outs ins p.st).cons i) j ∨ TiedTo ((placed outs ins p.st).cons j) i ∨
      ((placed outs ins p.st).Explicit i ∧ (placed outs ins p.st).Explicit j) := by
  obtain ⟨s₁, s₂, s₃, h1, h2, -, h4, -⟩ := prepare_inv h
  simp only [placed, h4] at hi hj hm
  exact h2.pairs i j r hij hi hj hm

/-- **Every operand is somewhere its constraint admits.** -/
theorem C48_fits {outs ins : List (List Char × Arg)} {cl : List Clob} {p : Plan}
    (h : prepare outs ins cl = .ok p) {i : Nat} (hi : i < (outs ++ ins).length) :
    (placed outs ins p.st).Fits i := by
  obtain ⟨s₁, s₂, s₃, h1, -, h3, h4, -⟩ := prepare_inv h
  have := h1.fits i (h3 i hi)
  unfold Placed.Fits at this ⊢
  simp only [placed, h4]
  exact this

/-- **A register asked for is the register given**, and so two different ones
cannot be asked for at once. -/
theorem C48_explicit {outs ins : List (List Char × Arg)} {cl : List Clob} {p : Plan}
    (h : prepare outs ins cl = .ok p) {i : Nat} {r q : Reg}
    (ha : Asks ((placed outs ins p.st).cons i) ((placed outs ins p.st).arg i) r)
    (hq : ((placed outs ins p.st).at_ i).register = some q) : q = r := by
  obtain ⟨s₁, s₂, s₃, h1, -, -, h4, -⟩ := prepare_inv h
  simp only [placed, h4] at hq
  exact (h1.exact i q r hq ha).symm

/-- **A clobbered register is given to no operand** that was not put there by
name. -/
theorem C48_clobbers {outs ins : List (List Char × Arg)} {cl : List Clob} {p : Plan}
    (h : prepare outs ins cl = .ok p) {i : Nat} {r : Reg} (hc : Clobbered cl r)
    (hi : ((placed outs ins p.st).at_ i).register = some r) :
    (placed outs ins p.st).Explicit i := by
  obtain ⟨s₁, s₂, s₃, -, h2, -, h4, -⟩ := prepare_inv h
  simp only [placed, h4] at hi
  exact h2.clobbers i r hi hc

/-! ### Register variables -/

/-- The operand at `i` has had its turn. -/
theorem constraintAll_turn {cons : Nat → List Char} {arg : Nat → Arg} {cl : List Clob} {i : Nat}
    (is : List Nat) : ∀ {P : Nat → Prop} {s s' : St}, Inv cons arg cl P s → AllExplicit cons arg s →
      (∀ i ∈ is, ¬ P i) → is.Nodup → constraintAll is s = .ok s' → i ∈ is →
      ∃ (Q : Nat → Prop) (t t' : St), Inv cons arg cl Q t ∧ ¬ Q i ∧ constraintOne i t = .ok t' := by
  induction is with
  | nil => intro P s s' _ _ _ _ _ hi; cases hi
  | cons j is ih =>
    intro P s s' h he hP hnd e hi
    rw [constraintAll] at e
    cases hx : constraintOne j s with
    | error x => rw [hx] at e; cases e
    | ok s₁ =>
      rw [hx] at e
      by_cases hij : i = j
      · subst hij
        exact ⟨P, s, s₁, h, hP i (by simp), hx⟩
      · obtain ⟨hni, hnd⟩ := List.nodup_cons.mp hnd
        obtain ⟨h1, h2, h3⟩ := constraintOne_inv (P' := fun k => P k ∨ k = j) h he
          (hP j (by simp)) (fun k => Iff.rfl) hx
        exact ih h1 h2 (by
          intro k hk hp
          rcases hp with hp | rfl
          · exact hP k (by simp [hk]) hp
          · exact hni hk) hnd e (by simpa [hij] using hi)

theorem read_turn {outs ins : List (List Char × Arg)} {cl : List Clob} {s : St} {i : Nat}
    (e : readOperands outs ins cl = .ok s) (hi : i < (outs ++ ins).length) :
    ∃ (Q : Nat → Prop) (t t' : St), Inv (consOf (outs ++ ins)) (argOf (outs ++ ins)) cl Q t ∧ ¬ Q i ∧
      constraintOne i t = .ok t' := by
  unfold readOperands at e
  simp only [bind, Except.bind] at e
  cases h0 : clobbers cl (initial outs ins) with
  | error x => rw [h0] at e; cases e
  | ok s₀ =>
    rw [h0] at e
    simp only at e
    cases h1 : constraintAll (List.range' outs.length ins.length) s₀ with
    | error x => rw [h1] at e; cases e
    | ok s₁ =>
      rw [h1] at e
      simp only at e
      obtain ⟨a1, a2, a3⟩ := start_inv h0
      by_cases hio : i < outs.length
      · obtain ⟨b1, b2, b3⟩ := constraintAll_inv _ a1 a2 (by simp) List.nodup_range' h1
        exact constraintAll_turn _ b1 b2 (by
          intro i hi hp
          rcases hp with hp | hp
          · exact hp
          · have := List.mem_range.mp hi
            have := List.mem_range'_1.mp hp
            omega) List.nodup_range e (List.mem_range.mpr hio)
      · exact constraintAll_turn _ a1 a2 (by simp) List.nodup_range' h1
          (List.mem_range'_1.mpr ⟨by omega, by simp only [List.length_append] at hi; omega⟩)

/-- **A register variable is accepted only where its constraint admits registers of its kind**, if the
operand has to be in a register at all. -/
theorem C48_register_variable {outs ins : List (List Char × Arg)} {cl : List Clob} {p : Plan}
    (h : prepare outs ins cl = .ok p) {i : Nat} (hi : i < (outs ++ ins).length) {r : Reg}
    (hv : ((placed outs ins p.st).arg i).varReg = some r)
    (hm : ¬ AllowsMemory ((placed outs ins p.st).cons i)) (hn : ¬ AllowsNumber ((placed outs ins p.st).cons i))
    (hf : ¬ ['=', '@', 'c', 'c'] <+: (placed outs ins p.st).cons i) :
    (rAX ≤ r → r ≤ rSP → 'r' ∈ (placed outs ins p.st).cons i ∨ 'q' ∈ (placed outs ins p.st).cons i) ∧
    (rXMM0 ≤ r → r ≤ rXMM15 → 'x' ∈ (placed outs ins p.st).cons i ∨ 'v' ∈ (placed outs ins p.st).cons i) ∧
    (rST0 ≤ r → r ≤ rST7 → 'f' ∈ (placed outs ins p.st).cons i) := by
  obtain ⟨s₀, -, -, -, -, h0, -⟩ := prepare_steps h
  obtain ⟨Q, t, t', inv, hq, e⟩ := read_turn h0 hi
  change ¬ AllowsMemory (consOf (outs ++ ins) i) at hm
  change ¬ AllowsNumber (consOf (outs ++ ins) i) at hn
  change ¬ _ <+: consOf (outs ++ ins) i at hf
  change (argOf (outs ++ ins) i).varReg = some r at hv
  show (_ → _ → 'r' ∈ consOf (outs ++ ins) i ∨ 'q' ∈ consOf (outs ++ ins) i) ∧
    (_ → _ → 'x' ∈ consOf (outs ++ ins) i ∨ 'v' ∈ consOf (outs ++ ins) i) ∧ (_ → _ → 'f' ∈ consOf (outs ++ ins) i)
  obtain ⟨hfr, -⟩ := inv.fresh i hq
  have hc := inv.consEq i
  have ha := inv.argEq i
  generalize consOf (outs ++ ins) i = c at *
  generalize argOf (outs ++ ins) i = a at *
  unfold constraintOne at e
  simp only [bind, Except.bind, pure, Except.pure] at e
  rw [if_neg (fun e4 => hf (by rw [← hc, ← e4]; exact List.take_prefix _ _))] at e
  cases hsc : scanAll (t.ops i).cons { o := t.ops i } with
  | error x => rw [hsc] at e; cases e
  | ok sc =>
    rw [hsc] at e
    have ok := scan_ok hfr hsc
    have hb := ok.base
    rw [hc] at ok
    simp only at e
    rw [if_neg (fun e => hn (ok.num (by rw [Bool.and_eq_true] at e; exact e.1))),
      if_neg (fun e => hn ⟨'i', ok.sym e, by decide⟩),
      if_neg (fun e => hm (ok.flags.mem.mp (by rw [Bool.and_eq_true] at e; exact e.1)))] at e
    cases hsv : scanVar sc with
    | error x => rw [hsv] at e; cases e
    | ok sc' =>
      unfold scanVar at hsv
      rw [hb.arg, ha, hv] at hsv
      simp only at hsv
      split at hsv
      · cases hsv
      · rename_i hk
        simp only [Bool.or_eq_true, Bool.and_eq_true, Bool.not_eq_true', not_or, not_and, Bool.not_eq_false] at hk
        obtain ⟨⟨k1, k2⟩, k3⟩ := hk
        unfold AllowsMemory at hm
        simp only [not_or] at hm
        refine ⟨fun h1 h2 => ?_, fun h1 h2 => ?_, fun h1 h2 => ?_⟩
        · rcases ok.flags.gp.mp (k1 (by simp [isGp, h1, h2])) with h | h | h | h
          · exact .inl h
          · exact .inr h
          · exact absurd h hm.2.2.1
          · exact absurd h hm.2.2.2
        · rcases ok.flags.fp.mp (k2 (by simp [isXmm, h1, h2])) with h | h | h
          · exact .inl h
          · exact .inr h
          · exact absurd h hm.2.2.2
        · exact ok.flags.x87.mp (k3 (by simp [isX87, h1, h2]))

/-- A constraint of digits only names the operand they spell. -/
theorem tied_digits {c : List Char} {k : Nat} (hd : ∀ d ∈ c, d.isDigit = true)
    (h : TiedTo c k) : decimal c = k := by
  obtain ⟨pre, ds, post, rfl, h1, h2, h3, h4, h5⟩ := h
  have hpost : post = [] := by
    cases post with
    | nil => rfl
    | cons x xs => exact absurd (hd x (by simp)) (h3 x (by simp))
  have hpre : pre = [] := by
    cases hl : pre.getLast? with
    | none => simpa using hl
    | some x =>
      have := List.mem_of_getLast? hl
      exact absurd (hd x (by simp [this])) (h4 x hl)
  subst hpost hpre
  simpa using h5

/-- **An input tied to an output shares its register.**  (The output may be a
memory operand, whose register is that of its address: see
`C48_tied_to_memory_output`.) -/
theorem C48_tied {outs ins : List (List Char × Arg)} {cl : List Clob} {p : Plan}
    (h : prepare outs ins cl = .ok p) {i : Nat} (hi : i < (outs ++ ins).length)
    (hne : (placed outs ins p.st).cons i ≠ [])
    (hd : ∀ d ∈ (placed outs ins p.st).cons i, d.isDigit = true)
    (hv : ((placed outs ins p.st).arg i).varReg = none) :
    ∃ r, (placed outs ins p.st).at_ i = .inReg r ∧
      IsOutput ((placed outs ins p.st).cons (decimal ((placed outs ins p.st).cons i))) ∧
      ((placed outs ins p.st).at_ (decimal ((placed outs ins p.st).cons i))).register
        = some r := by
  have hf := C48_fits h hi
  have no : ∀ x : Char, x.isDigit = false → x ∉ (placed outs ins p.st).cons i := by
    intro x hx hm
    have := hd x hm
    rw [hx] at this
    cases this
  have nomem : ¬ AllowsMemory ((placed outs ins p.st).cons i) := by
    rintro (h | h | h | h) <;> exact no _ (by decide) h
  unfold Placed.Fits at hf
  split at hf
  · exact hf.elim
  · obtain ⟨x, hx, hl⟩ := hf.2
    exfalso
    refine no x ?_ hx
    revert hl
    simp only [List.mem_cons, List.not_mem_nil, or_false]
    rintro (rfl | rfl | rfl | rfl | rfl | rfl | rfl | rfl | rfl | rfl | rfl | rfl) <;> decide
  · exact absurd hf (no _ (by decide))
  · exact absurd (hf.subset (List.mem_cons_self ..)) (no _ (by decide))
  · exact absurd hf.2 nomem
  · exact absurd hf.1 nomem
  · rename_i r hr
    rcases hf with hf | hf | ⟨k, h1, h2, h3⟩
    · rcases hf with ⟨x, hx, hl⟩ | hf
      · rw [letterReg_digit (hd x hx)] at hl; cases hl
      · rw [hv] at hf; cases hf
    · exfalso
      rcases hf with ⟨h, -⟩ | ⟨h, -⟩ | ⟨h, -⟩ | ⟨h, -⟩ | ⟨h, -⟩ | ⟨h, -⟩
      · rcases h with h | h | h | h <;> exact no _ (by decide) h
      · exact no _ (by decide) h
      · exact no _ (by decide) h
      · exact no _ (by decide) h
      · rcases h with h | h | h <;> exact no _ (by decide) h
      · exact no _ (by decide) h
    · refine ⟨r, hr, ?_⟩
      rw [tied_digits hd h1]
      exact ⟨h2, h3⟩

/-- A register in use is clobbered or has an operand. -/
theorem taken_iff {outs ins : List (List Char × Arg)} {cl : List Clob} {s : St}
    {P : Nat → Prop} (hP : ∀ i, P i ↔ i < (outs ++ ins).length)
    (h : Inv (consOf (outs ++ ins)) (argOf (outs ++ ins)) cl P s) (r : Reg) :
    Taken s r ↔ Clobbered cl r ∨ HeldBy (placed outs ins s) r := by
  have inside : ∀ i, (placeOf (s.ops i)).register = some r → i < (outs ++ ins).length := by
    intro i hi
    refine Classical.byContradiction fun hn => ?_
    exact register_kind hi (h.fresh i (by rw [hP]; exact hn)).1.kind
  constructor
  · intro ht
    rcases h.known r ht with hc | ⟨i, hi⟩
    · exact .inl hc
    · exact .inr ⟨i, inside i hi, hi⟩
  · rintro (hc | ⟨i, -, hi⟩)
    · exact .inl (h.clob r hc).1
    · have hi : (placeOf (s.ops i)).register = some r := hi
      have hr := register_reg hi
      rcases before_or_after (consOf (outs ++ ins) i) hi with hb | hb
      · have := h.before i hb
        rw [hr] at this
        exact .inl this
      · have := h.after i hb
        rw [hr] at this
        exact .inr this

/-- **An operand is refused only when nothing is left for it**: every register
its constraint admits, and every register for an address if it admits memory,
is clobbered or holds another operand. -/
theorem C48_error {outs ins : List (List Char × Arg)} {cl : List Clob} {i : Nat} {s : St}
    (h : prepare outs ins cl = .error (.cannotAssign i s)) :
    i < (outs ++ ins).length ∧
      (∀ r, Allowed ((placed outs ins s).cons i) r →
        Clobbered cl r ∨ HeldBy (placed outs ins s) r) ∧
      (AllowsMemory ((placed outs ins s).cons i) → ∀ r, rAX ≤ r → r ≤ rR15 →
        Clobbered cl r ∨ HeldBy (placed outs ins s) r) := by
  have rd : readOperands outs ins cl ≠ .error (.cannotAssign i s) := by
    intro e
    have clobOne : ∀ c t, clobberOne c t ≠ .error (.cannotAssign i s) := by
      intro c t e
      unfold clobberOne at e
      split at e
      · cases e
      · split at e
        · cases e
        · split at e
          · cases e
          · split at e <;> cases e
    have clobAll : ∀ cs t, clobbers cs t ≠ .error (.cannotAssign i s) := by
      intro cs
      induction cs with
      | nil => intro t e; cases e
      | cons c cs ih =>
        intro t e
        rw [clobbers] at e
        cases hx : clobberOne c t with
        | error x => rw [hx] at e; cases e; exact clobOne c t hx
        | ok t' => rw [hx] at e; exact ih t' e
    have fixed : ∀ sc r, fixedReg sc r ≠ .error (.cannotAssign i s) := by
      intro sc r e
      unfold fixedReg at e
      split at e
      · split at e <;> cases e
      · cases e
    have chr : ∀ sc c, scanChar sc c ≠ .error (.cannotAssign i s) := by
      intro sc c e
      unfold scanChar at e
      split at e
      · cases e
      · simp only at e
        split at e <;> first | cases e | exact fixed _ _ e
    have chars : ∀ cs sc, scanAll cs sc ≠ .error (.cannotAssign i s) := by
      intro cs
      induction cs with
      | nil => intro sc e; cases e
      | cons c cs ih =>
        intro sc e
        rw [scanAll] at e
        cases hx : scanChar sc c with
        | error x => rw [hx] at e; cases e; exact chr sc c hx
        | ok sc' => rw [hx] at e; exact ih sc' e
    have var : ∀ sc, scanVar sc ≠ .error (.cannotAssign i s) := by
      intro sc e
      unfold scanVar at e
      split at e
      · cases e
      · split at e
        · cases e
        · exact fixed _ _ e
    have one : ∀ j t, constraintOne j t ≠ .error (.cannotAssign i s) := by
      intro j t e
      unfold constraintOne at e
      simp only [bind, Except.bind, pure, Except.pure] at e
      split at e
      · cases e
      · split at e
        · rename_i hx; cases e; exact chars _ _ hx
        · split at e
          · cases e
          · split at e
            · cases e
            · split at e
              · cases e
              · split at e
                · rename_i hx; cases e; exact var _ hx
                · split at e
                  · cases e
                  · split at e
                    · cases e
                    · split at e <;> cases e
    have all : ∀ is t, constraintAll is t ≠ .error (.cannotAssign i s) := by
      intro is
      induction is with
      | nil => intro t e; cases e
      | cons j js ih =>
        intro t e
        rw [constraintAll] at e
        cases hx : constraintOne j t with
        | error x => rw [hx] at e; cases e; exact one j t hx
        | ok t' => rw [hx] at e; exact ih t' e
    unfold readOperands at e
    simp only [bind, Except.bind] at e
    split at e
    · rename_i hx; cases e; exact clobAll _ _ hx
    · split at e
      · rename_i hx; cases e; exact all _ _ hx
      · exact all _ _ e
  have acq : ∀ u, acquire u ≠ .error (.cannotAssign i s) := by
    intro u e
    unfold acquire at e
    split at e <;> cases e
  have alt : ∀ r t, altFor r t ≠ .error (.cannotAssign i s) := by
    intro r t e
    unfold altFor at e
    split at e
    · simp only [bind, Except.bind, pure, Except.pure] at e
      split at e
      · rename_i hx; cases e; exact acq _ hx
      · cases e
    · cases e
  have tmp : ∀ n a b t, tmpFor n a b t ≠ .error (.cannotAssign i s) := by
    intro n a b t e
    unfold tmpFor at e
    split at e
    · cases e
    · split at e
      · cases e
      · split at e
        · cases e
        · simp only [bind, Except.bind, pure, Except.pure] at e
          split at e
          · rename_i hx; cases e; exact acq _ hx
          · cases e
  unfold prepare at h
  simp only [bind, Except.bind, pure, Except.pure] at h
  split at h
  · rename_i hx; cases h; exact absurd hx rd
  rename_i s₀ h0
  split at h
  · rename_i hx
    cases h
    obtain ⟨a1, a2, a3⟩ := read_inv h0
    obtain ⟨j, s', e, b1, b2, b3, b4, b5⟩ :=
      (assign_inv (by rw [a3]; exact a1) (distinct_of_explicit a2)).2 _ hx
    cases e
    rw [a3] at b1 b2
    refine ⟨b1, fun r hr => ?_, fun hm r h1 h2 => ?_⟩
    · exact (taken_iff (fun _ => Iff.rfl) b2 r).mp (b4 r hr)
    · exact (taken_iff (fun _ => Iff.rfl) b2 r).mp (b5 hm r h1 h2)
  split at h
  · rename_i hx; cases h; exact absurd hx (alt _ _)
  split at h
  · rename_i hx; cases h; exact absurd hx (alt _ _)
  split at h
  · rename_i hx; cases h; exact absurd hx (tmp _ _ _ _)
  · cases h

theorem placed_congr {outs ins : List (List Char × Arg)} {s s' : St} (h : s'.ops = s.ops) :
    placed outs ins s' = placed outs ins s := by
  unfold placed
  rw [h]

/-- **While the text uses `%rbp` or `%rbx`, a register stands in for it** that
no operand has, that is not clobbered, and that differs from the other. -/
theorem C48_frame_pointers {outs ins : List (List Char × Arg)} {cl : List Clob} {p : Plan}
    (h : prepare outs ins cl = .ok p) :
    (p.alt1.isSome ↔ Clobbered cl rBP ∨ HeldBy (placed outs ins p.st) rBP) ∧
    (p.alt2.isSome ↔ Clobbered cl rBX ∨ HeldBy (placed outs ins p.st) rBX) ∧
    (∀ a, p.alt1 = some a ∨ p.alt2 = some a → rAX ≤ a ∧ a ≤ rR15 ∧ ¬ Clobbered cl a ∧
      ¬ HeldBy (placed outs ins p.st) a) ∧
    (∀ a, p.alt1 = some a → p.alt2 ≠ some a) := by
  obtain ⟨s₁, s₂, s₃, h1, -, -, h4, h5, h6, -⟩ := prepare_inv h
  have tk := taken_iff (outs := outs) (ins := ins) (fun _ => Iff.rfl) h1
  obtain ⟨a1, a2, a3, a4, a5, a6⟩ := altFor_ok h5
  obtain ⟨b1, b2, b3, b4, b5, b6⟩ := altFor_ok h6
  have t2 : ∀ q, Taken s₂ q ↔ Taken s₁ q ∨ p.alt1 = some q := by
    intro q
    unfold Taken
    rw [a5, a6]
    constructor
    · rintro ((h | h) | (h | h))
      · exact .inl (.inl h)
      · exact .inr h
      · exact .inl (.inr h)
      · exact .inr h
    · rintro ((h | h) | h)
      · exact .inl (.inl h)
      · exact .inr (.inl h)
      · exact .inl (.inr h)
  rw [placed_congr h4]
  refine ⟨a3.trans (tk rBP), ?_, ?_, ?_⟩
  · rw [b3, t2, tk rBX]
    constructor
    · rintro (h | h)
      · exact h
      · exact absurd (a4 _ h).2.2 (by decide)
    · exact .inl
  · rintro a (ha | ha)
    · obtain ⟨c1, c2, c3⟩ := a4 a ha
      rw [tk] at c1
      exact ⟨c2, c3, fun e => c1 (.inl e), fun e => c1 (.inr e)⟩
    · obtain ⟨c1, c2, c3⟩ := b4 a ha
      rw [t2, tk] at c1
      exact ⟨c2, c3, fun e => c1 (.inl (.inl e)), fun e => c1 (.inl (.inr e))⟩
  · intro a ha hb
    exact (b4 a hb).1 ((t2 a).mpr (.inr ha))

/-- **Storing the results uses a register that holds none of them**, nor what
stands in for `%rbp` or `%rbx`. -/
theorem C48_output_scratch {outs ins : List (List Char × Arg)} {cl : List Clob} {p : Plan}
    (h : prepare outs ins cl = .ok p) :
    (p.tmp.isSome ↔ outs ≠ []) ∧
    (∀ t, p.tmp = some t → isGp t = true ∧ t ≠ rSP ∧ p.alt1 ≠ some t ∧ p.alt2 ≠ some t ∧
      ∀ i, IsOutput ((placed outs ins p.st).cons i) → (placed outs ins p.st).at_ i ≠ .inReg t) := by
  obtain ⟨s₁, s₂, s₃, h1, -, -, h4, h5, h6, h7, -⟩ := prepare_inv h
  obtain ⟨a1, a2, a3, a4, a5, a6⟩ := altFor_ok h5
  obtain ⟨b1, b2, b3, b4, b5, b6⟩ := altFor_ok h6
  obtain ⟨c1, c2, c3, c4, c5⟩ := tmpFor_ok h7
  rw [placed_congr h4]
  refine ⟨c3.trans (by simp), fun t ht => ?_⟩
  obtain ⟨d1, d2⟩ := c5 t ht
  have e1 : s₃.outU t ≠ true := by rw [d1]; simp
  refine ⟨?_, ?_, ?_, ?_, ?_⟩
  · rcases d2 with ⟨rfl, -⟩ | ⟨rfl, -⟩ | ⟨h8, h9, -⟩
    · rfl
    · rfl
    · simp only [isGp, Bool.and_eq_true, decide_eq_true_eq]
      exact ⟨h8, Nat.le_trans h9 (by decide)⟩
  · rcases d2 with ⟨rfl, -⟩ | ⟨rfl, -⟩ | ⟨-, h9, -⟩
    · decide
    · decide
    · rintro rfl
      exact absurd h9 (by decide)
  · intro e
    exact e1 ((b6 t).mpr (.inl ((a6 t).mpr (.inr e))))
  · intro e
    exact e1 ((b6 t).mpr (.inr e))
  · intro i ho hi
    have hi : placeOf (s₁.ops i) = .inReg t := hi
    have := h1.after i (by rw [hi]; exact ho)
    rw [register_reg (r := t) (by rw [hi]; rfl)] at this
    exact e1 ((b6 t).mpr (.inl ((a6 t).mpr (.inl this))))

/-- **Registers the caller relies on are restored**: `%r12`–`%r15` are saved
and `%rbp`, `%rbx` have a stand-in (with which they are saved) whenever an
operand, a clobber or the compiler itself uses them. -/
theorem C48_saved {outs ins : List (List Char × Arg)} {cl : List Clob} {p : Plan}
    (h : prepare outs ins cl = .ok p) {r : Reg}
    (hu : Clobbered cl r ∨ HeldBy (placed outs ins p.st) r ∨ p.alt1 = some r ∨ p.alt2 = some r ∨
      p.tmp = some r) :
    (rR12 ≤ r → r ≤ rR15 → p.saved r = true) ∧ (r = rBP → p.alt1.isSome) ∧
      (r = rBX → p.alt2.isSome) := by
  obtain ⟨f1, f2, f3, -⟩ := C48_frame_pointers h
  obtain ⟨s₁, s₂, s₃, h1, -, -, h4, h5, h6, h7, h8⟩ := prepare_inv h
  have tk := taken_iff (outs := outs) (ins := ins) (fun _ => Iff.rfl) h1
  obtain ⟨a1, a2, a3, a4, a5, a6⟩ := altFor_ok h5
  obtain ⟨b1, b2, b3, b4, b5, b6⟩ := altFor_ok h6
  obtain ⟨c1, c2, c3, c4, c5⟩ := tmpFor_ok h7
  have last : ∀ q, Taken s₁ q ∨ p.alt1 = some q ∨ p.alt2 = some q → Taken p.st q := by
    intro q hq
    unfold Taken at *
    rw [c2]
    rcases hq with (hq | hq) | hq | hq
    · exact .inl ((b5 q).mpr (.inl ((a5 q).mpr (.inl hq))))
    · exact .inr (c4 q ((b6 q).mpr (.inl ((a6 q).mpr (.inl hq)))))
    · exact .inl ((b5 q).mpr (.inl ((a5 q).mpr (.inr hq))))
    · exact .inl ((b5 q).mpr (.inr hq))
  rw [placed_congr h4] at hu f1 f2
  refine ⟨fun l1 l2 => ?_, ?_, ?_⟩
  · have : Taken p.st r := by
      rcases hu with hu | hu | hu | hu | hu
      · exact last r (.inl ((tk r).mpr (.inl hu)))
      · exact last r (.inl ((tk r).mpr (.inr hu)))
      · exact last r (.inr (.inl hu))
      · exact last r (.inr (.inr hu))
      · rcases (c5 r hu).2 with ⟨rfl, -⟩ | ⟨rfl, -⟩ | ⟨-, -, hx⟩
        · exact absurd l2 (by decide)
        · exact absurd l2 (by decide)
        · exact .inr hx
    rw [h8]
    simp only [Bool.and_eq_true, Bool.or_eq_true, decide_eq_true_eq]
    exact ⟨⟨l1, Nat.le_trans l2 (by decide)⟩, this⟩
  · rintro rfl
    rcases hu with hu | hu | hu | hu | hu
    · exact f1.mpr (.inl hu)
    · exact f1.mpr (.inr hu)
    · exact absurd (f3 _ (.inl hu)).2.1 (by decide)
    · exact absurd (f3 _ (.inr hu)).2.1 (by decide)
    · rcases (c5 _ hu).2 with ⟨-, hx⟩ | ⟨hx, -⟩ | ⟨-, hx, -⟩
      · exact hx
      · exact absurd hx (by decide)
      · exact absurd hx (by decide)
  · rintro rfl
    rcases hu with hu | hu | hu | hu | hu
    · exact f2.mpr (.inl hu)
    · exact f2.mpr (.inr hu)
    · exact absurd (f3 _ (.inl hu)).2.1 (by decide)
    · exact absurd (f3 _ (.inr hu)).2.1 (by decide)
    · rcases (c5 _ hu).2 with ⟨hx, -⟩ | ⟨-, hx⟩ | ⟨-, hx, -⟩
      · exact absurd hx (by decide)
      · exact hx
      · exact absurd hx (by decide)

/-! ### The hypotheses can be met, and departures -/

/-- A way to write operands. -/
def asmOp (c : String) (a : Arg := {}) : List Char × Arg := (c.toList, a)

/-- The places, the stand-ins and the scratch register chosen. -/
def asmShown (outs ins : List (List Char × Arg)) (cl : List Clob) :
    Option (List Where × Option Reg × Option Reg × Option Reg) :=
  match prepare outs ins cl with
  | .ok p => some ((List.range (outs ++ ins).length).map (placed outs ins p.st).at_,
      p.alt1, p.alt2, p.tmp)
  | .error _ => none

set_option maxRecDepth 4000 in
/-- `asm("…" : "=r"(a), "=&r"(b), "=m"(*q) : "0"(c), "r"(d), "b"(e), "i"(3)
: "rcx", "rbp")`: nothing collides, `%rbp` has a stand-in. -/
example : asmShown [asmOp "=r", asmOp "=&r", asmOp "=m"]
    [asmOp "0", asmOp "r", asmOp "b", asmOp "i" { constInt := true }] [.gp rCX, .gp rBP] =
    some ([.inReg rAX, .inReg rDX, .memoryAt rSI, .inReg rAX, .inReg rDI, .inReg rBX, .number],
      some rR8, some rR9, some rBX) := by decide

/-- Two outputs of which neither is early-clobber, and an input: the input may
share a register with an output, the outputs not with each other. -/
example : asmShown [asmOp "=r", asmOp "=r"] [asmOp "r"] [] =
    some ([.inReg rAX, .inReg rCX, .inReg rAX], none, none, some rDX) := by decide

/-- A statement refused for want of registers: five operands for the four
registers with high bytes. -/
example : ∃ s, prepare [] (List.replicate 5 (asmOp "Q")) [] = .error (.cannotAssign 4 s) := by
  cases h : prepare [] (List.replicate 5 (asmOp "Q")) [] with
  | ok p =>
    exfalso
    have : asmShown [] (List.replicate 5 (asmOp "Q")) [] = none := by decide
    rw [asmShown, h] at this
    cases this
  | error x =>
    have hx : (match prepare [] (List.replicate 5 (asmOp "Q")) [] with
      | .error (.cannotAssign i _) => i
      | _ => 99) = 4 := by decide
    rw [h] at hx
    cases x with
    | cannotAssign i s => simp only at hx; subst hx; exact ⟨s, rfl⟩
    | _ => cases hx

/-- **Departure.**  Naming one register for two outputs, or a clobbered one for
an operand, is accepted without a word. -/
theorem C48_same_register_twice :
    asmShown [asmOp "=a", asmOp "=a"] [] [] =
      some ([.inReg rAX, .inReg rAX], none, none, some rCX) ∧
    asmShown [] [asmOp "a", asmOp "a"] [] = some ([.inReg rAX, .inReg rAX], none, none, none) ∧
    asmShown [] [asmOp "a"] [.gp rAX] = some ([.inReg rAX], none, none, none) :=
  ⟨by decide, by decide, by decide⟩

/-- **Departure.**  `asm("…" : "=m"(*q) : "0"(x))` ties an input to a memory
operand; the input is then loaded into the register that holds the *address* of
the output. -/
theorem C48_tied_to_memory_output :
    asmShown [asmOp "=m"] [asmOp "0"] [] =
      some ([.memoryAt rAX, .inReg rAX], none, none, some rCX) := by decide

/-- **Departure.**  The clobbers `"xmm16"` to `"xmm23"` are taken for x87
registers and dropped; `"xmm24"` writes beyond the table. -/
theorem C48_high_vector_clobbers (n : Nat) (h : 16 ≤ n) (s : St) :
    (n < 24 → clobberOne (.vec n) s = .ok s) ∧
    (24 ≤ n → clobberOne (.vec n) s = .error .undefined) := by
  constructor
  · intro hn
    unfold clobberOne
    simp only [identReg]
    rw [if_neg (by romega), if_pos]
    simp only [isX87, Bool.and_eq_true, decide_eq_true_eq]
    romega
  · intro hn
    unfold clobberOne
    simp only [identReg]
    rw [if_neg (by romega), if_neg, if_pos (by romega)]
    simp only [isX87, Bool.and_eq_true, decide_eq_true_eq]
    romega

end Slimcc.Props
