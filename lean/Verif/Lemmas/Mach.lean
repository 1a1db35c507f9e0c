import Verif.Lemmas.Mem
/-! Running generated code: sequences, temporaries, and what is left untouched. -/
set_option autoImplicit false
namespace Slimcc
open Slimcc.Spec Slimcc.Spec.CTy Slimcc.Ty Slimcc.X86 Slimcc.Gen

section
variable (E : Env) (P : List Line)

theorem bytes_size (t : CTy) : t.bytes = (ity t).size := by cases t <;> rfl

theorem Spec.Env.size_eq (x : Nat) : E.size x = (ity (E.Γ x)).size := bytes_size _

theorem Spec.Env.size_le (x : Nat) : E.size x ≤ 8 := by rw [Env.size_eq]; exact (Slimcc.size_le _).1

theorem byte_bits (x : Word) (i j : Nat) (hj : j < 8) : ((x >>> (8 * i)).setWidth 8).getLsbD j = x.getLsbD (8 * i + j) := by
  rw [BitVec.getLsbD_setWidth, BitVec.getLsbD_ushiftRight]; simp [hj]

/-- The variables read from memory. -/
theorem rel_iff (σ : Store) (m : Mem) :
    Rel E σ m ↔ ∀ x, E.dom x → rd m (E.addr x) (E.size x) = zx (E.size x) (BitVec.ofInt 64 (σ x)) := by
  constructor
  · intro h x hx
    apply BitVec.eq_of_getLsbD_eq
    intro i hi
    rw [rd_bits _ _ _ _ (E.size_le x)]
    unfold zx
    simp only [BitVec.getLsbD_setWidth, hi, decide_true, Bool.true_and]
    by_cases h1 : i < 8 * E.size x
    · simp only [h1, decide_true, Bool.true_and]
      rw [h x hx (i / 8) (by omega), byte_bits _ _ _ (by omega)]
      congr 1; omega
    · simp [h1]
  · intro h x hx i hi
    have e := h x hx
    apply BitVec.eq_of_getLsbD_eq
    intro j hj
    rw [byte_bits _ _ _ hj]
    have := congrArg (fun z => z.getLsbD (8 * i + j)) e
    have h8 := E.size_le x
    simp only [rd_bits _ _ _ _ h8, zx, BitVec.getLsbD_setWidth] at this
    rw [show (8 * i + j) / 8 = i by omega, show (8 * i + j) % 8 = j by omega] at this
    simpa [show 8 * i + j < 8 * E.size x by omega, show 8 * i + j < 64 by omega] using this

theorem Spec.Rel.read {E : Env} {σ : Store} {m : Mem} (h : Rel E σ m) {x : Nat} (hx : E.dom x) :
    rd m (E.addr x) (E.size x) = zx (E.size x) (BitVec.ofInt 64 (σ x)) := (rel_iff E σ m).1 h x hx

theorem sub_down (c z r : Word) : c - (z + -r) = (c - z) + r := by
  rw [BitVec.sub_eq_add_neg, BitVec.neg_add, BitVec.sub_eq_add_neg, BitVec.neg_neg, BitVec.sub_eq_add_neg, BitVec.add_assoc]

theorem slot_down (j : Nat) : E.slot j = E.slot 0 + -(BitVec.ofNat 64 (8 * j)) := by
  unfold Env.slot
  have e : (-((E.stk + (j + 1) * 8 : Nat) : Int)) = -((E.stk + (0 + 1) * 8 : Nat) : Int) + -((8 * j : Nat) : Int) := by omega
  rw [e, BitVec.ofInt_add, BitVec.ofInt_neg (n := ((8 * j : Nat) : Int)), BitVec.ofInt_natCast, BitVec.add_assoc]

theorem slots_disj (h : E.Ok) (j k : Nat) (hj : j < E.K) (hk : k < E.K) (hne : j ≠ k) : Disj (E.slot j) 8 (E.slot k) 8 := by
  intro c ⟨h1, h2⟩
  unfold InBlk at h1 h2
  rw [slot_down, sub_down] at h1 h2
  have := h.room
  generalize hd : c - E.slot 0 = d at h1 h2
  have h0 := d.isLt
  rw [BitVec.toNat_add, BitVec.toNat_ofNat, Nat.mod_eq_of_lt (by omega : 8 * j < 2 ^ 64)] at h1
  rw [BitVec.toNat_add, BitVec.toNat_ofNat, Nat.mod_eq_of_lt (by omega : 8 * k < 2 ^ 64)] at h2
  omega

theorem execs_append (sym : Nat → Word) (a b : List Ins) (s : St) :
    execs sym (a ++ b) s = (execs sym a s).bind (execs sym b) := by
  induction a generalizing s with
  | nil => rfl
  | cons i a ih =>
    simp only [List.cons_append, execs]
    cases exec sym i s with
    | none => rfl
    | some s1 => exact ih s1

theorem Spec.Runs.refl (sym : Nat → Word) (c : Nat × St) : Runs sym P c c := ⟨0, rfl⟩

theorem steps_add (sym : Nat → Word) (j k : Nat) (c : Nat × St) :
    steps sym P (j + k) c = (steps sym P j c).bind (steps sym P k) := by
  induction j generalizing c with
  | zero => simp [steps]
  | succ j ih =>
    rw [Nat.succ_add]
    simp only [steps]
    cases step sym P c with
    | none => rfl
    | some c1 => exact ih c1

theorem Spec.Runs.trans {sym : Nat → Word} {P : List Line} {a b c : Nat × St} (h : Runs sym P a b) (h' : Runs sym P b c) : Runs sym P a c := by
  obtain ⟨j, hj⟩ := h
  obtain ⟨k, hk⟩ := h'
  exact ⟨j + k, by rw [steps_add, hj]; exact hk⟩

theorem Spec.Runs.one {sym : Nat → Word} {P : List Line} {a b : Nat × St} (h : step sym P a = some b) : Runs sym P a b :=
  ⟨1, by simp [steps, h]⟩

theorem codeAt_append (pc : Nat) (a b : List Line) : CodeAt P pc (a ++ b) ↔ CodeAt P pc a ∧ CodeAt P (pc + a.length) b := by
  constructor
  · intro h
    refine ⟨fun i hi => ?_, fun i hi => ?_⟩
    · rw [h i (by rw [List.length_append]; omega), List.getElem?_append_left hi]
    · have := h (a.length + i) (by rw [List.length_append]; omega)
      rw [List.getElem?_append_right (by omega)] at this
      rw [Nat.add_assoc, this]; congr 1; omega
  · intro ⟨ha, hb⟩ i hi
    rw [List.length_append] at hi
    by_cases h : i < a.length
    · rw [ha i h, List.getElem?_append_left h]
    · have := hb (i - a.length) (by omega)
      rw [List.getElem?_append_right (by omega), ← this]; congr 1; omega

theorem codeAt_cons (pc : Nat) (l : Line) (b : List Line) : CodeAt P pc (l :: b) ↔ P[pc]? = some l ∧ CodeAt P (pc + 1) b := by
  rw [show l :: b = [l] ++ b from rfl, codeAt_append]
  constructor
  · rintro ⟨h1, h2⟩; exact ⟨by simpa using h1 0 (by simp), h2⟩
  · rintro ⟨h1, h2⟩
    refine ⟨fun i hi => ?_, h2⟩
    have : i = 0 := by simpa using hi
    subst this; simpa using h1

theorem codeAt_nil (pc : Nat) : CodeAt P pc [] := fun i hi => absurd hi (by simp)

theorem runs_execs (sym : Nat → Word) (l : List Ins) (s s' : St) (h : execs sym l s = some s') (pc : Nat)
    (hc : CodeAt P pc (l.map .ins)) : Runs sym P (pc, s) (pc + l.length, s') := by
  induction l generalizing s pc with
  | nil => simp only [execs, Option.some.injEq] at h; subst h; exact Runs.refl P sym _
  | cons i l ih =>
    rw [List.map_cons, codeAt_cons] at hc
    simp only [execs] at h
    cases h1 : exec sym i s with
    | none => rw [h1] at h; cases h
    | some s1 =>
      rw [h1] at h
      refine (Runs.one ?_).trans (b := (pc + 1, s1)) ?_
      · unfold step; simp only [hc.1, h1, Option.map_some]
      · have := ih s1 h (pc + 1) hc.2
        rw [List.length_cons, show pc + (l.length + 1) = pc + 1 + l.length by omega]
        exact this

theorem find_of_at (hu : UniqueLabels P) (i : Nat) (l : Label) (h : P[i]? = some (.lab l)) : find P l = some i := by
  unfold find
  rw [List.findIdx?_eq_some_iff_getElem]
  rw [List.getElem?_eq_some_iff] at h
  obtain ⟨hi, e⟩ := h
  refine ⟨hi, by rw [e]; simp, fun j hj => ?_⟩
  simp only [beq_iff_eq]
  intro hc
  have := hu j i l (by rw [List.getElem?_eq_getElem (by omega), hc]) (by rw [List.getElem?_eq_getElem hi, e])
  omega

/-- What a piece of code that uses temporaries below the given depths leaves alone. -/
structure Eff (gp st : Nat) (s s' : St) : Prop where
  bp : s'.r .bp = s.r .bp
  sp : s'.r .sp = s.r .sp
  regs : ∀ i, gp ≤ i → i < GP_SLOTS → s'.r (.tmp i) = s.r (.tmp i)
  mem : ∀ a, (∀ x, E.dom x → ¬ InBlk (E.addr x) (E.size x) a) → (∀ k, k < st → ¬ InBlk (E.slot k) 8 a) → s'.m a = s.m a

theorem Eff.refl (gp st : Nat) (s : St) : Eff E gp st s s := ⟨rfl, rfl, fun _ _ _ => rfl, fun _ _ _ => rfl⟩

theorem Eff.trans {E : Env} {gp st : Nat} {s s1 s2 : St} (h : Eff E gp st s s1) (h' : Eff E gp st s1 s2) : Eff E gp st s s2 :=
  ⟨h'.bp.trans h.bp, h'.sp.trans h.sp, fun i h1 h2 => (h'.regs i h1 h2).trans (h.regs i h1 h2), fun a h1 h2 => (h'.mem a h1 h2).trans (h.mem a h1 h2)⟩

theorem Eff.mono {E : Env} {gp st gp' st' : Nat} {s s1 : St} (h : Eff E gp st s s1) (hg : gp ≤ gp') (hs : st ≤ st') : Eff E gp' st' s s1 :=
  ⟨h.bp, h.sp, fun i h1 h2 => h.regs i (by omega) h2, fun a h1 h2 => h.mem a h1 fun k hk => h2 k (by omega)⟩

/-- Running the code from `s` gets past it, in a state with the given property. -/
def Does (o : Out) (s : St) (Q : St → Prop) : Prop :=
  ∀ pc, CodeAt P pc o.code → ∃ s', Runs E.sym P (pc, s) (pc + o.code.length, s') ∧ Eff E o.gp o.st s s' ∧ Q s'

/-- Running the code from `s` gets to the label if `taken`, and past the code otherwise. -/
def DoesJ (o : Out) (l : Label) (s : St) (taken : Bool) (Q : St → Prop) : Prop :=
  ∀ pc tgt, CodeAt P pc o.code → find P l = some tgt →
    ∃ s', Runs E.sym P (pc, s) (if taken then tgt else pc + o.code.length, s') ∧ Eff E o.gp o.st s s' ∧ Q s'

variable {E P}

theorem Does.imp {o : Out} {s : St} {Q R : St → Prop} (h : Does E P o s Q) (hi : ∀ s', Eff E o.gp o.st s s' → Q s' → R s') : Does E P o s R := by
  intro pc hc
  obtain ⟨s', h1, h2, h3⟩ := h pc hc
  exact ⟨s', h1, h2, hi s' h2 h3⟩

theorem does_inss (l : List Ins) (s s' : St) (Q : St → Prop) (h : execs E.sym l s = some s') (he : Eff E 0 0 s s') (hq : Q s') (c : Nat) :
    Does E P (inss l c).1 s Q := by
  intro pc hc
  refine ⟨s', ?_, he, hq⟩
  have := runs_execs P E.sym l s s' h pc hc
  simpa [inss, lines] using this

theorem does_nil (s : St) (Q : St → Prop) (hq : Q s) (c : Nat) : Does E P (lines [] c).1 s Q := by
  intro pc hc
  exact ⟨s, Runs.refl P _ _, Eff.refl E _ _ s, hq⟩

theorem does_seq (a b : G) (c : Nat) (s : St) (Q R : St → Prop) (ha : Does E P (a c).1 s Q)
    (hb : ∀ s1, Eff E (a c).1.gp (a c).1.st s s1 → Q s1 → Does E P (b (a c).2).1 s1 R) : Does E P ((a ;; b) c).1 s R := by
  intro pc hc
  have hc' : CodeAt P pc ((a c).1.code ++ (b (a c).2).1.code) := hc
  rw [codeAt_append] at hc'
  obtain ⟨s1, r1, e1, q1⟩ := ha pc hc'.1
  obtain ⟨s2, r2, e2, q2⟩ := hb s1 e1 q1 _ hc'.2
  refine ⟨s2, ?_, ?_, q2⟩
  · have := r1.trans r2
    show Runs E.sym P (pc, s) (pc + ((a c).1.code ++ (b (a c).2).1.code).length, s2)
    rw [List.length_append, ← Nat.add_assoc]; exact this
  · exact (e1.mono (Nat.le_max_left _ _) (Nat.le_max_left _ _)).trans (e2.mono (Nat.le_max_right _ _) (Nat.le_max_right _ _))

theorem doesJ_seq (a b : G) (l : Label) (c : Nat) (s : St) (tk : Bool) (Q R : St → Prop) (ha : Does E P (a c).1 s Q)
    (hb : ∀ s1, Eff E (a c).1.gp (a c).1.st s s1 → Q s1 → DoesJ E P (b (a c).2).1 l s1 tk R) : DoesJ E P ((a ;; b) c).1 l s tk R := by
  intro pc tgt hc hl
  have hc' : CodeAt P pc ((a c).1.code ++ (b (a c).2).1.code) := hc
  rw [codeAt_append] at hc'
  obtain ⟨s1, r1, e1, q1⟩ := ha pc hc'.1
  obtain ⟨s2, r2, e2, q2⟩ := hb s1 e1 q1 _ tgt hc'.2 hl
  refine ⟨s2, ?_, ?_, q2⟩
  · have := r1.trans r2
    show Runs E.sym P (pc, s) (if tk = true then tgt else pc + ((a c).1.code ++ (b (a c).2).1.code).length, s2)
    rw [List.length_append, ← Nat.add_assoc]; exact this
  · exact (e1.mono (Nat.le_max_left _ _) (Nat.le_max_left _ _)).trans (e2.mono (Nat.le_max_right _ _) (Nat.le_max_right _ _))

theorem doesJ_jcc (l : Label) (c : Nat) (s : St) (cc : CC) (f : Flags) (Q : St → Prop) (hf : s.f = some f) (hq : Q s) :
    DoesJ E P (lines [.jcc cc l] c).1 l s (cc.holds f) Q := by
  intro pc tgt hc hl
  have hc' : CodeAt P pc [.jcc cc l] := hc
  rw [codeAt_cons] at hc'
  refine ⟨s, Runs.one ?_, Eff.refl E _ _ s, hq⟩
  unfold step
  simp only [hc'.1, hf, hl, Option.map_some, lines, List.length_singleton]
  split <;> simp

theorem doesJ_jmp (l : Label) (c : Nat) (s : St) (Q : St → Prop) (hq : Q s) : DoesJ E P (lines [.jmp l] c).1 l s true Q := by
  intro pc tgt hc hl
  have hc' : CodeAt P pc [.jmp l] := hc
  rw [codeAt_cons] at hc'
  refine ⟨s, Runs.one ?_, Eff.refl E _ _ s, hq⟩
  unfold step
  simp only [hc'.1, hl, Option.map_some, if_true]

theorem doesJ_nil (l : Label) (c : Nat) (s : St) (Q : St → Prop) (hq : Q s) : DoesJ E P (lines [] c).1 l s false Q := by
  intro pc tgt hc hl
  exact ⟨s, Runs.refl P _ _, Eff.refl E _ _ s, hq⟩

end
end Slimcc
