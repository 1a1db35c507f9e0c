import Verif.Lemmas.Mach
/-! Jumps inside generated code. -/
set_option autoImplicit false
namespace Slimcc
open Slimcc.Spec Slimcc.Spec.CTy Slimcc.Ty Slimcc.X86 Slimcc.Gen

section
variable {E : Env} {P : List Line}

theorem seq_assoc (a b d : G) : ((a ;; b) ;; d) = (a ;; b ;; d) := by
  funext c
  simp only [seq, List.append_assoc, Nat.max_assoc]

theorem DoesJ.imp {o : Out} {l : Label} {s : St} {tk : Bool} {Q R : St → Prop} (h : DoesJ E P o l s tk Q) (hi : ∀ s', Eff E o.gp o.st s s' → Q s' → R s') :
    DoesJ E P o l s tk R := by
  intro pc tgt hc hl
  obtain ⟨s', h1, h2, h3⟩ := h pc tgt hc hl
  exact ⟨s', h1, h2, hi s' h2 h3⟩

/-- Two conditions that jump to the same place. -/
theorem doesJ_two (a b : G) (l : Label) (c : Nat) (s : St) (t1 t2 : Bool) (Q R : St → Prop) (ha : DoesJ E P (a c).1 l s t1 Q)
    (ht : t1 = true → ∀ s1, Q s1 → R s1)
    (hb : t1 = false → ∀ s1, Eff E (a c).1.gp (a c).1.st s s1 → Q s1 → DoesJ E P (b (a c).2).1 l s1 t2 R) :
    DoesJ E P ((a ;; b) c).1 l s (t1 || t2) R := by
  intro pc tgt hc hl
  have hc' : CodeAt P pc ((a c).1.code ++ (b (a c).2).1.code) := hc
  rw [codeAt_append] at hc'
  obtain ⟨s1, r1, e1, q1⟩ := ha pc tgt hc'.1 hl
  cases t1 with
  | true => exact ⟨s1, r1, e1.mono (Nat.le_max_left _ _) (Nat.le_max_left _ _), ht rfl s1 q1⟩
  | false =>
    obtain ⟨s2, r2, e2, q2⟩ := hb rfl s1 e1 q1 _ tgt hc'.2 hl
    refine ⟨s2, ?_, ?_, q2⟩
    · have := r1.trans r2
      show Runs E.sym P (pc, s) (if (false || t2) = true then tgt else pc + ((a c).1.code ++ (b (a c).2).1.code).length, s2)
      rw [List.length_append, ← Nat.add_assoc, Bool.false_or]; exact this
    · exact (e1.mono (Nat.le_max_left _ _) (Nat.le_max_left _ _)).trans (e2.mono (Nat.le_max_right _ _) (Nat.le_max_right _ _))

theorem run_lab (pc : Nat) (s : St) (l : Label) (h : P[pc]? = some (.lab l)) : Runs E.sym P (pc, s) (pc + 1, s) := by
  refine Runs.one ?_; unfold step; simp only [h]
theorem run_jmp (pc tgt : Nat) (s : St) (l : Label) (h : P[pc]? = some (.jmp l)) (ht : find P l = some tgt) : Runs E.sym P (pc, s) (tgt, s) := by
  refine Runs.one ?_; unfold step; simp only [h, ht, Option.map_some]
theorem run_ins (pc : Nat) (s s' : St) (i : Ins) (h : P[pc]? = some (.ins i)) (he : exec E.sym i s = some s') : Runs E.sym P (pc, s) (pc + 1, s') := by
  refine Runs.one ?_; unfold step; simp only [h, he, Option.map_some]

/-- A condition turned round: `X` jumps over a jump. -/
theorem doesJ_over (hu : UniqueLabels P) (X : G) (l sl : Label) (c : Nat) (s : St) (tk : Bool) (Q : St → Prop) (h : DoesJ E P (X c).1 sl s tk Q) :
    DoesJ E P ((X ;; lines [.jmp l, .lab sl]) c).1 l s (!tk) Q := by
  intro pc tgt hc hl
  have hc' : CodeAt P pc ((X c).1.code ++ [.jmp l, .lab sl]) := hc
  rw [codeAt_append, codeAt_cons, codeAt_cons] at hc'
  obtain ⟨c1, c2, c3, _⟩ := hc'
  have hf := find_of_at P hu _ _ c3
  obtain ⟨s1, r1, e1, q1⟩ := h pc _ c1 hf
  refine ⟨s1, ?_, e1.mono (Nat.le_max_left _ _) (Nat.le_max_left _ _), q1⟩
  show Runs E.sym P (pc, s) (if (!tk) = true then tgt else pc + ((X c).1.code ++ [Line.jmp l, Line.lab sl]).length, s1)
  rw [List.length_append]
  cases tk with
  | true => exact r1.trans (run_lab _ s1 sl c3)
  | false => exact r1.trans (run_jmp _ _ s1 l c2 hl)

/-- The value of a condition: one of two instructions. -/
theorem does_pick (hu : UniqueLabels P) (X : G) (i0 i1 : Ins) (sl fl : Label) (c : Nat) (s : St) (tk : Bool) (Q R : St → Prop)
    (h : DoesJ E P (X c).1 sl s tk Q)
    (hi : ∀ s1, Q s1 → ∃ s2, exec E.sym (if tk then i1 else i0) s1 = some s2 ∧ Eff E 0 0 s1 s2 ∧ R s2) :
    Does E P ((X ;; lines [.ins i0, .jmp fl, .lab sl, .ins i1, .lab fl]) c).1 s R := by
  intro pc hc
  have hc' : CodeAt P pc ((X c).1.code ++ [.ins i0, .jmp fl, .lab sl, .ins i1, .lab fl]) := hc
  rw [codeAt_append, codeAt_cons, codeAt_cons, codeAt_cons, codeAt_cons, codeAt_cons] at hc'
  obtain ⟨c1, c2, c3, c4, c5, c6, _⟩ := hc'
  have hf := find_of_at P hu _ _ c4
  have hf' := find_of_at P hu _ _ c6
  obtain ⟨s1, r1, e1, q1⟩ := h pc _ c1 hf
  obtain ⟨s2, x2, e2, q2⟩ := hi s1 q1
  refine ⟨s2, ?_, (e1.mono (Nat.le_max_left _ _) (Nat.le_max_left _ _)).trans (e2.mono (Nat.zero_le _) (Nat.zero_le _)), q2⟩
  show Runs E.sym P (pc, s) (pc + ((X c).1.code ++ [Line.ins i0, Line.jmp fl, Line.lab sl, Line.ins i1, Line.lab fl]).length, s2)
  rw [List.length_append]
  cases tk with
  | true => exact ((r1.trans (run_lab _ s1 sl c4)).trans (run_ins _ s1 s2 i1 c5 x2)).trans (run_lab _ s2 fl c6)
  | false => exact ((r1.trans (run_ins _ s1 s2 i0 c2 x2)).trans (run_jmp _ _ s2 fl c3 hf')).trans (run_lab _ s2 fl c6)

/-- One of two pieces of code. -/
theorem does_ite (hu : UniqueLabels P) (C A B : G) (le ld : Label) (c : Nat) (s : St) (tk : Bool) (Q R : St → Prop)
    (h : DoesJ E P (C c).1 le s tk Q)
    (ha : tk = false → ∀ s1, Eff E (C c).1.gp (C c).1.st s s1 → Q s1 → Does E P (A (C c).2).1 s1 R)
    (hb : tk = true → ∀ s1, Eff E (C c).1.gp (C c).1.st s s1 → Q s1 → Does E P (B (A (C c).2).2).1 s1 R) :
    Does E P ((C ;; A ;; lines [.jmp ld, .lab le] ;; B ;; lines [.lab ld]) c).1 s R := by
  intro pc hc
  have hc' : CodeAt P pc ((C c).1.code ++ ((A (C c).2).1.code ++ ([.jmp ld, .lab le] ++ ((B (A (C c).2).2).1.code ++ [.lab ld])))) := hc
  rw [codeAt_append, codeAt_append, List.cons_append, codeAt_cons, List.cons_append, codeAt_cons, List.nil_append, codeAt_append, codeAt_cons] at hc'
  obtain ⟨c1, c2, c3, c4, c5, c6, _⟩ := hc'
  have hf := find_of_at P hu _ _ c4
  have hf' := find_of_at P hu _ _ c6
  obtain ⟨s1, r1, e1, q1⟩ := h pc _ c1 hf
  show ∃ s', Runs E.sym P (pc, s) (pc + ((C c).1.code ++ ((A (C c).2).1.code ++ ([Line.jmp ld, Line.lab le] ++ ((B (A (C c).2).2).1.code ++ [Line.lab ld])))).length, s') ∧
    Eff E (max (C c).1.gp (max (A (C c).2).1.gp (max 0 (max (B (A (C c).2).2).1.gp 0)))) (max (C c).1.st (max (A (C c).2).1.st (max 0 (max (B (A (C c).2).2).1.st 0)))) s s' ∧ R s'
  have hlen : pc + ((C c).1.code ++ ((A (C c).2).1.code ++ ([Line.jmp ld, Line.lab le] ++ ((B (A (C c).2).2).1.code ++ [Line.lab ld])))).length =
      pc + (C c).1.code.length + (A (C c).2).1.code.length + 1 + 1 + (B (A (C c).2).2).1.code.length + 1 := by
    simp only [List.length_append, List.length_cons, List.length_nil]; omega
  rw [hlen]
  cases tk with
  | false =>
    obtain ⟨s2, r2, e2, q2⟩ := ha rfl s1 e1 q1 _ c2
    refine ⟨s2, ?_, (e1.mono (by omega) (by omega)).trans (e2.mono (by omega) (by omega)), q2⟩
    exact ((r1.trans r2).trans (run_jmp _ _ s2 ld c3 hf')).trans (run_lab _ s2 ld c6)
  | true =>
    obtain ⟨s2, r2, e2, q2⟩ := hb rfl s1 e1 q1 _ c5
    refine ⟨s2, ?_, (e1.mono (by omega) (by omega)).trans (e2.mono (by omega) (by omega)), q2⟩
    exact ((r1.trans (run_lab _ s1 le c4)).trans r2).trans (run_lab _ s2 ld c6)

end
end Slimcc
