/-
The passes of register assignment, one after the other.
-/
import Verif.Lemmas.AsmStep
set_option autoImplicit false

namespace Slimcc.AsmL
open Slimcc.Asm Slimcc.AsmSpec

/-- Arithmetic on register numbers. -/
macro "romega" : tactic => `(tactic| (
  simp only [rAX, rCX, rDX, rSI, rDI, rR8, rR9, rR10, rR11, rR12, rR15, rBX, rBP, rSP, rXMM0,
    rXMM15, rST0, rST1, rST7, rEND, Reg] at *
  omega))

/-! ### Clobbers -/

theorem clobbered_nil (r : Reg) : ¬ Clobbered [] r := by
  rintro (⟨h, -⟩ | ⟨n, h, -⟩) <;> cases h

theorem clobbered_cons (c : Clob) (cs : List Clob) (r : Reg) :
    Clobbered (c :: cs) r ↔ Clobbered [c] r ∨ Clobbered cs r := by
  unfold Clobbered
  simp only [List.mem_cons, List.not_mem_nil, or_false]
  constructor
  · rintro (⟨h | h, h1⟩ | ⟨n, h | h, h1⟩)
    · exact .inl (.inl ⟨h, h1⟩)
    · exact .inr (.inl ⟨h, h1⟩)
    · exact .inl (.inr ⟨n, h, h1⟩)
    · exact .inr (.inr ⟨n, h, h1⟩)
  · rintro ((⟨h, h1⟩ | ⟨n, h, h1⟩) | (⟨h, h1⟩ | ⟨n, h, h1⟩))
    · exact .inl ⟨.inl h, h1⟩
    · exact .inr ⟨n, .inl h, h1⟩
    · exact .inl ⟨.inr h, h1⟩
    · exact .inr ⟨n, .inr h, h1⟩

theorem identReg_clobbered {c : Clob} {s s' : St} (e : clobberOne c s = .ok s') :
    s'.cnt = s.cnt ∧ s'.ops = s.ops ∧
      ∀ r, (s'.inU r = true ↔ s.inU r = true ∨ Clobbered [c] r) ∧
        (s'.outU r = true ↔ s.outU r = true ∨ Clobbered [c] r) := by
  have quiet : ∀ c : Clob, (∀ r, ¬ Clobbered [c] r) →
      ∀ r, (s.inU r = true ↔ s.inU r = true ∨ Clobbered [c] r) ∧
        (s.outU r = true ↔ s.outU r = true ∨ Clobbered [c] r) := by
    intro c h r
    simp [h r]
  have loud : ∀ q, (∀ r, Clobbered [c] r ↔ r = q) →
      ∀ r, (setAt s.inU q true r = true ↔ s.inU r = true ∨ Clobbered [c] r) ∧
        (setAt s.outU q true r = true ↔ s.outU r = true ∨ Clobbered [c] r) := by
    intro q h r
    rw [h]
    constructor <;> constructor
    · exact setAt_new
    · rintro (h | h)
      · exact setAt_keep _ _ h
      · rw [h, setAt_same]
    · exact setAt_new
    · rintro (h | h)
      · exact setAt_keep _ _ h
      · rw [h, setAt_same]
  have gpOnly : ∀ q r, Clobbered [Clob.gp q] r ↔ (r = q ∧ r ≠ rSP ∧ r < rST0) := by
    intro q r
    unfold Clobbered
    simp
  have vecOnly : ∀ n r, Clobbered [Clob.vec n] r ↔ (n < 16 ∧ r = rXMM0 + n) := by
    intro n r
    unfold Clobbered
    simp
  have stOnly : ∀ n r, ¬ Clobbered [Clob.st n] r := by
    intro n r
    unfold Clobbered
    simp
  unfold clobberOne at e
  cases c with
  | cc => cases e; exact ⟨rfl, rfl, quiet _ (fun r => by unfold Clobbered; simp)⟩
  | memory => cases e; exact ⟨rfl, rfl, quiet _ (fun r => by unfold Clobbered; simp)⟩
  | gp q =>
    simp only [identReg] at e
    split at e
    · cases e
      refine ⟨rfl, rfl, quiet _ (fun r => ?_)⟩
      rw [gpOnly]
      rintro ⟨rfl, h1, -⟩
      contradiction
    · split at e
      · rename_i h
        cases e
        refine ⟨rfl, rfl, quiet _ (fun r => ?_)⟩
        rw [gpOnly]
        rintro ⟨rfl, -, h2⟩
        simp only [isX87, Bool.and_eq_true, decide_eq_true_eq] at h
        exact absurd h.1 (Nat.not_le.mpr h2)
      · split at e
        · cases e
        · rename_i h0 h1 h2
          cases e
          refine ⟨rfl, rfl, loud q (fun r => ?_)⟩
          rw [gpOnly]
          constructor
          · exact fun h => h.1
          · rintro rfl
            refine ⟨rfl, h0, ?_⟩
            simp only [isX87, Bool.and_eq_true, decide_eq_true_eq] at h1
            clear loud gpOnly vecOnly stOnly quiet
            romega
  | vec n =>
    simp only [identReg] at e
    split at e
    · rename_i h
      clear loud gpOnly vecOnly stOnly quiet
      romega
    · split at e
      · rename_i h
        cases e
        refine ⟨rfl, rfl, quiet _ (fun r => ?_)⟩
        rw [vecOnly]
        rintro ⟨h1, -⟩
        simp only [isX87, Bool.and_eq_true, decide_eq_true_eq] at h
        clear loud gpOnly vecOnly stOnly quiet
        romega
      · split at e
        · cases e
        · rename_i h0 h1 h2
          cases e
          refine ⟨rfl, rfl, loud _ (fun r => ?_)⟩
          rw [vecOnly]
          constructor
          · exact fun h => h.2
          · intro h
            refine ⟨?_, h⟩
            simp only [isX87, Bool.and_eq_true, decide_eq_true_eq] at h1
            clear loud gpOnly vecOnly stOnly quiet
            romega
  | st n =>
    simp only [identReg] at e
    have hx : isX87 (rST0 + min n 7) = true := by
      simp only [isX87, Bool.and_eq_true, decide_eq_true_eq]
      clear loud gpOnly vecOnly stOnly quiet
      romega
    have hs : rST0 + min n 7 ≠ rSP := by
      clear loud gpOnly vecOnly stOnly quiet
      romega
    rw [if_neg hs, if_pos hx] at e
    cases e
    exact ⟨rfl, rfl, quiet _ (stOnly n)⟩

theorem clobbers_ok (cl : List Clob) :
    ∀ {s s' : St}, clobbers cl s = .ok s' → s'.cnt = s.cnt ∧ s'.ops = s.ops ∧
      ∀ r, (s'.inU r = true ↔ s.inU r = true ∨ Clobbered cl r) ∧
        (s'.outU r = true ↔ s.outU r = true ∨ Clobbered cl r) := by
  induction cl with
  | nil =>
    intro s s' e
    cases e
    exact ⟨rfl, rfl, fun r => by simp [clobbered_nil r]⟩
  | cons c cs ih =>
    intro s s' e
    rw [clobbers] at e
    cases hx : clobberOne c s with
    | error x => rw [hx] at e; cases e
    | ok s₁ =>
      rw [hx] at e
      obtain ⟨h1, h2, h3⟩ := identReg_clobbered hx
      obtain ⟨g1, g2, g3⟩ := ih e
      refine ⟨g1.trans h1, g2.trans h2, fun r => ?_⟩
      rw [(g3 r).1, (g3 r).2, (h3 r).1, (h3 r).2, clobbered_cons c cs r, or_assoc, or_assoc]
      exact ⟨Iff.rfl, Iff.rfl⟩

/-! ### The start -/

/-- The constraint and the expression of operand `i`. -/
def consOf (l : List (List Char × Arg)) (i : Nat) : List Char := ((l[i]?).map (·.1)).getD []
def argOf (l : List (List Char × Arg)) (i : Nat) : Arg := ((l[i]?).map (·.2)).getD {}

theorem initial_fresh (outs ins : List (List Char × Arg)) (i : Nat) :
    Fresh ((initial outs ins).ops i) ∧ ((initial outs ins).ops i).mtch = none ∧
      ((initial outs ins).ops i).cons = consOf (outs ++ ins) i ∧
      ((initial outs ins).ops i).arg = argOf (outs ++ ins) i := by
  unfold initial consOf argOf
  simp only
  cases h : (outs ++ ins)[i]? with
  | none => exact ⟨⟨rfl, rfl, rfl, rfl, rfl, rfl, rfl, rfl, rfl, rfl⟩, rfl, rfl, rfl⟩
  | some x =>
    obtain ⟨c, a⟩ := x
    exact ⟨⟨rfl, rfl, rfl, rfl, rfl, rfl, rfl, rfl, rfl, rfl⟩, rfl, rfl, rfl⟩

theorem start_inv {outs ins : List (List Char × Arg)} {cl : List Clob} {s : St}
    (e : clobbers cl (initial outs ins) = .ok s) :
    Inv (consOf (outs ++ ins)) (argOf (outs ++ ins)) cl (fun _ => False) s ∧
      AllExplicit (consOf (outs ++ ins)) (argOf (outs ++ ins)) s ∧
      s.cnt = (outs ++ ins).length := by
  obtain ⟨h1, h2, h3⟩ := clobbers_ok cl e
  have hf : ∀ i, Fresh (s.ops i) ∧ (s.ops i).mtch = none ∧
      (s.ops i).cons = consOf (outs ++ ins) i ∧ (s.ops i).arg = argOf (outs ++ ins) i := by
    intro i
    rw [h2]
    exact initial_fresh outs ins i
  have hp : ∀ i, placeOf (s.ops i) = .nowhere := by
    intro i
    unfold placeOf
    rw [(hf i).1.kind]
  refine ⟨⟨?_, ?_, ?_, ?_, ?_, ?_, ?_, ?_, ?_, ?_, ?_, ?_, ?_⟩, ?_, h1⟩
  · exact fun i => (hf i).2.2.1
  · exact fun i => (hf i).2.2.2
  · exact fun i _ => ⟨(hf i).1, fun k => by rw [(hf k).2.1]; simp⟩
  · exact fun i h => h.elim
  · exact fun i h => h.elim
  · exact fun i _ => (hf i).1.reg
  · intro k i h; rw [(hf k).2.1] at h; cases h
  · intro i h; rw [hp] at h; exact h.elim
  · intro i h; rw [hp] at h; exact h.elim
  · exact fun r h => ⟨(h3 r).1.mpr (.inr h), (h3 r).2.mpr (.inr h)⟩
  · intro r h
    rcases h with h | h
    · rcases (h3 r).1.mp h with h | h
      · cases h
      · exact .inl h
    · rcases (h3 r).2.mp h with h | h
      · cases h
      · exact .inl h
  · intro i h; exact absurd (hf i).1.kind h
  · intro i r r' h; rw [hp] at h; cases h
  · intro i r h; rw [hp] at h; cases h

/-! ### Constraints -/

theorem scanVar_ok {sc sc' : Scan} (e : scanVar sc = .ok sc') :
    sc'.o = sc.o ∧ sc'.idx = sc.idx ∧
      (∀ r, sc'.reg = some r → sc.reg = some r ∨ sc.o.arg.varReg = some r) ∧
      (∀ r, sc.reg = some r → sc'.reg = some r) ∧
      (∀ r, sc.o.arg.varReg = some r → sc'.reg = some r) := by
  unfold scanVar at e
  cases hv : sc.o.arg.varReg with
  | none =>
    rw [hv] at e
    cases e
    exact ⟨rfl, rfl, fun r h => .inl h, fun r h => h, fun r h => by cases h⟩
  | some q =>
    rw [hv] at e
    simp only at e
    split at e
    · cases e
    · unfold fixedReg at e
      cases hr : sc.reg with
      | none =>
        rw [hr] at e
        cases e
        refine ⟨rfl, rfl, fun r h => .inr h, fun r h => ?_, fun r h => h⟩
        cases h
      | some p =>
        rw [hr] at e
        simp only at e
        split at e
        · cases e
        · rename_i hne
          have hpq : p = q := Decidable.byContradiction hne
          cases e
          subst hpq
          exact ⟨rfl, rfl, fun r h => .inr h, fun r h => h, fun r h => h⟩

/-- Reading one operand's constraint. -/
theorem constraintOne_inv {cons : Nat → List Char} {arg : Nat → Arg} {cl : List Clob}
    {P P' : Nat → Prop} {s s' : St} {i : Nat}
    (h : Inv cons arg cl P s) (he : AllExplicit cons arg s) (hi : ¬ P i)
    (hP : ∀ j, P' j ↔ P j ∨ j = i)
    (e : constraintOne i s = .ok s') :
    Inv cons arg cl P' s' ∧ AllExplicit cons arg s' ∧ s'.cnt = s.cnt := by
  obtain ⟨hfr, hnm⟩ := h.fresh i hi
  have hc := h.consEq i
  have ha := h.argEq i
  unfold constraintOne at e
  simp only [bind, Except.bind, pure, Except.pure] at e
  split at e
  · -- a condition flag
    rename_i h4
    cases e
    have st : Still s { s with ops := setAt s.ops i { s.ops i with kind := .flag } } i := by
      refine ⟨rfl, rfl, rfl, hfr.kind, ?_, ?_, ?_, ?_, ?_⟩ <;> (try simp only [setAt_same])
      · exact hfr.reg
      · simp
      · intro j hj; rw [setAt_other _ _ hj]
    refine ⟨still_inv h st hP hi ?_ ?_ ?_ ?_, still_explicit st he, rfl⟩
    · intro hk; simp [setAt_same] at hk
    · intro k j hk
      by_cases hki : k = i
      · subst hki; simp only [setAt_same] at hk; exact .inl hk
      · simp only [setAt_other _ _ hki] at hk; exact .inl hk
    · intro _
      unfold Placed.Fits
      simp only [pl, setAt_same, placeOf]
      rw [← hc, ← h4]
      exact List.take_prefix _ _
    · intro hk; simp [setAt_same] at hk
  · cases hsc : scanAll (s.ops i).cons { o := s.ops i } with
    | error x => rw [hsc] at e; cases e
    | ok sc =>
      rw [hsc] at e
      have ok := scan_ok hfr hsc
      have hb := ok.base
      have hfl : Flags (cons i) sc.o := by have := ok.flags; rw [hc] at this; exact this
      simp only at e
      -- an operand that is decided without a register
      have quiet : ∀ k : Kind, k ≠ .reg → k ≠ .flag → k ≠ .none →
          (pl cons arg { s with ops := setAt s.ops i { sc.o with kind := k } }).Fits i →
          Inv cons arg cl P' { s with ops := setAt s.ops i { sc.o with kind := k } } ∧
            AllExplicit cons arg { s with ops := setAt s.ops i { sc.o with kind := k } } ∧
            s.cnt = s.cnt := by
        intro k hk1 hk2 hk3 hfit
        have st : Still s { s with ops := setAt s.ops i { sc.o with kind := k } } i := by
          refine ⟨rfl, rfl, rfl, hfr.kind, ?_, ?_, ?_, ?_, ?_⟩ <;> (try simp only [setAt_same])
          · exact hb.cons
          · exact hb.arg
          · rw [hb.reg]; exact hfr.reg
          · exact hk1
          · intro j hj; rw [setAt_other _ _ hj]
        refine ⟨still_inv h st hP hi ?_ ?_ ?_ ?_, still_explicit st he, rfl⟩
        · intro _
          simp only [setAt_same]
          exact ⟨hfl.mem, hfl.gp, hfl.fp, hfl.x87, hfl.early, hfl.high, hfl.legacy, hfl.free⟩
        · intro k' j hk
          by_cases hki : k' = i
          · subst hki; simp only [setAt_same] at hk; rw [hb.mtch] at hk; exact .inl hk
          · simp only [setAt_other _ _ hki] at hk; exact .inl hk
        · intro _; exact hfit
        · intro hk; simp only [setAt_same] at hk; exact absurd hk hk3
      split at e
      · rename_i hnum
        cases e
        rw [Bool.and_eq_true] at hnum
        refine quiet .num (by simp) (by simp) (by simp) ?_
        unfold Placed.Fits
        simp only [pl, setAt_same, placeOf]
        refine ⟨by rw [← ha]; exact hnum.2, ?_⟩
        rw [← hc]; exact ok.num hnum.1
      · split at e
        · rename_i hsym
          cases e
          refine quiet .sym (by simp) (by simp) (by simp) ?_
          unfold Placed.Fits
          simp only [pl, setAt_same, placeOf]
          rw [← hc]; exact ok.sym hsym
        · split at e
          · rename_i hmem
            cases e
            rw [Bool.and_eq_true] at hmem
            refine quiet .mem (by simp) (by simp) (by simp) ?_
            have h0 : sc.o.reg = 0 := by rw [hb.reg]; exact hfr.reg
            unfold Placed.Fits
            simp only [pl, setAt_same, placeOf, h0, if_true]
            exact ⟨by rw [← ha]; exact hmem.2, hfl.mem.mp hmem.1⟩
          · cases hv : scanVar sc with
            | error x => rw [hv] at e; cases e
            | ok sc' =>
              rw [hv] at e
              simp only at e
              obtain ⟨ho, hidx, hr1, hr2, hr3⟩ := scanVar_ok hv
              have hvar : sc.o.arg.varReg = (arg i).varReg := by rw [hb.arg, ha]
              have asks : ∀ r, sc'.reg = some r ↔ Asks (cons i) (arg i) r := by
                intro r
                unfold Asks
                rw [← hvar, ← hc]
                constructor
                · intro hr
                  rcases hr1 r hr with hr | hr
                  · exact .inl (ok.regS r hr)
                  · exact .inr hr
                · rintro (⟨x, hx, hxr⟩ | hr)
                  · exact hr2 r (ok.regC x hx r hxr)
                  · exact hr3 r hr
              cases hreg : sc'.reg with
              | some r =>
                rw [hreg] at e
                simp only at e
                cases e
                have har := (asks r).mp hreg
                obtain ⟨t, p, hop⟩ := setUse_put (cons := cons) (s := s) (i := i)
                  (o := { sc'.o with reg := r, kind := .reg }) hfr.kind
                  (by rw [ho]; exact hb.cons) (by rw [ho]; exact hb.cons.trans hc)
                  (by rw [ho]; exact hb.arg) (by rw [ho]; exact hb.mtch) (.inl rfl)
                  (by rw [ho]; exact ⟨hfl.mem, hfl.gp, hfl.fp, hfl.x87, hfl.early, hfl.high,
                        hfl.legacy, hfl.free⟩)
                refine ⟨put_inv h p hP ?_ (.inl ⟨?_, .inl har⟩) ?_, put_explicit h p har he, p.cnt⟩
                · rw [hop, ho]
                  exact ⟨hfl.mem, hfl.gp, hfl.fp, hfl.x87, hfl.early, hfl.high,
                    hfl.legacy, hfl.free⟩
                · rw [hop]; rfl
                · intro r' har'
                  have := (asks r').mpr har'
                  rw [hreg] at this
                  cases this
                  rfl
              | none =>
                rw [hreg] at e
                simp only at e
                have unask : ∀ r, ¬ Asks (cons i) (arg i) r := by
                  intro r hr
                  have := (asks r).mpr hr
                  rw [hreg] at this
                  cases this
                have h0 : sc'.o.reg = 0 := by rw [ho, hb.reg]; exact hfr.reg
                have hk0 : sc'.o.kind = .none := by rw [ho, hb.kind]; exact hfr.kind
                cases hix : sc'.idx with
                | none =>
                  rw [hix] at e
                  cases e
                  have st : Still s { s with ops := setAt s.ops i sc'.o } i := by
                    refine ⟨rfl, rfl, rfl, hfr.kind, ?_, ?_, ?_, ?_, ?_⟩ <;>
                      (try simp only [setAt_same])
                    · rw [ho]; exact hb.cons
                    · rw [ho]; exact hb.arg
                    · exact h0
                    · rw [hk0]; simp
                    · intro j hj; rw [setAt_other _ _ hj]
                  refine ⟨still_inv h st hP hi ?_ ?_ ?_ (fun _ => unask), still_explicit st he, rfl⟩
                  · intro _; simp only [setAt_same]; rw [ho]; exact hfl
                  · intro k j hk
                    by_cases hki : k = i
                    · subst hki; simp only [setAt_same] at hk; rw [ho, hb.mtch] at hk; exact .inl hk
                    · simp only [setAt_other _ _ hki] at hk; exact .inl hk
                  · intro hk; simp only [setAt_same] at hk; exact absurd hk0 hk
                | some k =>
                  rw [hix] at e
                  simp only at e
                  split at e
                  · cases e
                  · cases e
                    have htie : TiedTo (cons i) k := by
                      have := ok.tie
                      rw [← hidx, hix, hc] at this
                      exact this.tiedTo
                    let f := setAt s.ops i sc'.o
                    let f' := setAt f k { f k with mtch := some i }
                    have hf'i : f' i = { sc'.o with mtch := (f' i).mtch } := by
                      by_cases hki : i = k
                      · subst hki
                        simp only [f', f, setAt_same]
                      · simp only [f', f, setAt_other _ _ hki, setAt_same]
                    have hf'o : ∀ j, j ≠ i → f' j = { s.ops j with mtch := (f' j).mtch } := by
                      intro j hj
                      by_cases hjk : j = k
                      · subst hjk
                        simp only [f', f, setAt_same, setAt_other _ _ hj]
                      · simp only [f', f, setAt_other _ _ hjk, setAt_other _ _ hj]
                    have st : Still s { s with ops := f' } i := by
                      refine ⟨rfl, rfl, rfl, hfr.kind, ?_, ?_, ?_, ?_, hf'o⟩ <;> simp only
                      · rw [hf'i, ho]; exact hb.cons
                      · rw [hf'i, ho]; exact hb.arg
                      · rw [hf'i]; exact h0
                      · rw [hf'i]; simp only; rw [hk0]; simp
                    refine ⟨still_inv (s' := { s with ops := f' }) h st hP hi ?_ ?_ ?_
                      (fun _ => unask), still_explicit st he, rfl⟩
                    · intro _
                      simp only
                      rw [hf'i, ho]
                      exact hfl.congr _
                    · intro k' j hk
                      simp only at hk
                      by_cases hkk : k' = k
                      · subst hkk
                        simp only [f', setAt_same] at hk
                        cases hk
                        exact .inr ⟨rfl, htie⟩
                      · by_cases hki : k' = i
                        · subst hki
                          simp only [f', f, setAt_other _ _ hkk, setAt_same] at hk
                          rw [ho, hb.mtch] at hk
                          exact .inl hk
                        · simp only [f', f, setAt_other _ _ hkk, setAt_other _ _ hki] at hk
                          exact .inl hk
                    · intro hk
                      simp only at hk
                      rw [hf'i] at hk
                      exact absurd hk0 hk

theorem constraintAll_inv {cons : Nat → List Char} {arg : Nat → Arg} {cl : List Clob}
    (is : List Nat) :
    ∀ {P : Nat → Prop} {s s' : St}, Inv cons arg cl P s → AllExplicit cons arg s →
      (∀ i ∈ is, ¬ P i) → is.Nodup → constraintAll is s = .ok s' →
      Inv cons arg cl (fun j => P j ∨ j ∈ is) s' ∧ AllExplicit cons arg s' ∧ s'.cnt = s.cnt := by
  induction is with
  | nil =>
    intro P s s' h he _ _ e
    cases e
    have : (fun j => P j ∨ j ∈ ([] : List Nat)) = P := by
      funext j; simp
    rw [this]
    exact ⟨h, he, rfl⟩
  | cons i is ih =>
    intro P s s' h he hP hnd e
    rw [constraintAll] at e
    cases hx : constraintOne i s with
    | error x => rw [hx] at e; cases e
    | ok s₁ =>
      rw [hx] at e
      obtain ⟨hni, hnd⟩ := List.nodup_cons.mp hnd
      obtain ⟨h1, h2, h3⟩ := constraintOne_inv (P' := fun j => P j ∨ j = i) h he
        (hP i (by simp)) (fun j => Iff.rfl) hx
      obtain ⟨g1, g2, g3⟩ := ih h1 h2 (by
        intro j hj hp
        rcases hp with hp | rfl
        · exact hP j (by simp [hj]) hp
        · exact hni hj) hnd e
      have : (fun j => P j ∨ j ∈ i :: is) = (fun j => (P j ∨ j = i) ∨ j ∈ is) := by
        funext j; simp [or_assoc]
      rw [this]
      exact ⟨g1, g2, g3.trans h3⟩

theorem read_inv {outs ins : List (List Char × Arg)} {cl : List Clob} {s : St}
    (e : readOperands outs ins cl = .ok s) :
    Inv (consOf (outs ++ ins)) (argOf (outs ++ ins)) cl (fun i => i < (outs ++ ins).length) s ∧
      AllExplicit (consOf (outs ++ ins)) (argOf (outs ++ ins)) s ∧
      s.cnt = (outs ++ ins).length := by
  unfold readOperands at e
  simp only [bind, Except.bind] at e
  cases h0 : clobbers cl (initial outs ins) with
  | error x => rw [h0] at e; cases e
  | ok s₀ =>
    rw [h0] at e
    simp only at e
    cases h1 : constraintAll (List.range' outs.length ins.length) s₀ with
    | error x => rw [h1] at e; cases e
    | ok s₁ =>
      rw [h1] at e
      simp only at e
      obtain ⟨a1, a2, a3⟩ := start_inv h0
      obtain ⟨b1, b2, b3⟩ := constraintAll_inv _ a1 a2 (by simp) List.nodup_range' h1
      obtain ⟨c1, c2, c3⟩ := constraintAll_inv _ b1 b2 (by
        intro i hi hp
        rcases hp with hp | hp
        · exact hp
        · have := List.mem_range.mp hi
          have := List.mem_range'_1.mp hp
          omega) List.nodup_range e
      have : (fun j => (False ∨ j ∈ List.range' outs.length ins.length) ∨
          j ∈ List.range outs.length) = (fun i => i < (outs ++ ins).length) := by
        funext j
        simp only [List.mem_range'_1, List.mem_range, List.length_append, false_or, eq_iff_iff]
        omega
      rw [← this]
      exact ⟨c1, c2, c3.trans (b3.trans a3)⟩

end Slimcc.AsmL
