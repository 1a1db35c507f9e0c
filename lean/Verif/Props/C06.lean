import Verif.Lemmas.Unicode
/-! # C06: identifier characters and display widths are those of the tables -/
set_option autoImplicit false
namespace Slimcc.Props
open Slimcc Slimcc.Unicode

theorem ident1_table_ok : tableOk 0 ident1Table = true := by decide +kernel
theorem ident2_table_ok : tableOk 0 ident2Table = true := by decide +kernel
theorem width0_table_ok : tableOk 0 width0Table = true := by decide +kernel
theorem width2_table_ok : tableOk 0 width2Table = true := by decide +kernel

/-- C06 (a). A code point starts an identifier exactly when it is in an interval of the table. -/
theorem C06_ident1_iff (c : Nat) : isIdent1 c = true ↔ Spec.InIntervals ident1Table c :=
  inRange_iff _ 0 c ident1_table_ok

/-- C06 (b). A code point continues an identifier exactly when it is in an interval of one of the
two tables. -/
theorem C06_ident2_iff (c : Nat) :
    isIdent2 c = true ↔ Spec.InIntervals ident1Table c ∨ Spec.InIntervals ident2Table c := by
  unfold isIdent2
  rw [Bool.or_eq_true, C06_ident1_iff, inRange_iff _ 0 c ident2_table_ok]

/-- C06 (c). Display width: 0 for code points in the zero-width table, 2 for those in the wide
table, 1 otherwise; the two tables do not overlap, so the order of the tests is irrelevant. -/
theorem C06_charWidth (c : Nat) :
    (charWidth c = 0 ↔ Spec.InIntervals width0Table c) ∧
    (charWidth c = 2 ↔ (Spec.InIntervals width2Table c ∧ ¬ Spec.InIntervals width0Table c)) ∧
    (charWidth c = 1 ↔ (¬ Spec.InIntervals width2Table c ∧ ¬ Spec.InIntervals width0Table c)) := by
  unfold charWidth
  rw [← inRange_iff _ 0 c width0_table_ok, ← inRange_iff _ 0 c width2_table_ok]
  cases inRange c width0Table <;> cases inRange c width2Table <;> simp

/-- ASCII part of the tables: letters, `_` and `$` start identifiers; digits only continue them. -/
theorem C06_ascii (c : Nat) (h : c < 128) :
    (isIdent1 c = true ↔ (65 ≤ c ∧ c ≤ 90) ∨ (97 ≤ c ∧ c ≤ 122) ∨ c = 95 ∨ c = 36) ∧
    (isIdent2 c = true ↔ (65 ≤ c ∧ c ≤ 90) ∨ (97 ≤ c ∧ c ≤ 122) ∨ c = 95 ∨ c = 36 ∨ (48 ≤ c ∧ c ≤ 57)) := by
  have key : ∀ c : Fin 128,
      (isIdent1 c = true ↔ (65 ≤ c.val ∧ c.val ≤ 90) ∨ (97 ≤ c.val ∧ c.val ≤ 122) ∨ c.val = 95 ∨ c.val = 36) ∧
      (isIdent2 c = true ↔ (65 ≤ c.val ∧ c.val ≤ 90) ∨ (97 ≤ c.val ∧ c.val ≤ 122) ∨ c.val = 95 ∨ c.val = 36 ∨ (48 ≤ c.val ∧ c.val ≤ 57)) := by
    decide +kernel
  exact key ⟨c, h⟩

/-- The width the specification gives to a text: tabs count 8, others by the tables. -/
def textWidth (cs : List Nat) : Nat := (cs.map fun c => if c = 9 then 8 else charWidth c).sum

theorem utf8_cons (c : Nat) : ∃ b t, Spec.utf8 c = b :: t := by
  unfold Spec.utf8
  by_cases h1 : c < 0x80
  · simp [h1]
  · by_cases h2 : c < 0x800
    · simp [h1, h2]
    · by_cases h3 : c < 0x10000 <;> simp [h1, h2, h3]

/-- C06 (d). `display_width` of the UTF-8 form of any text is the sum of the widths of its
characters, whatever follows the text in the buffer. -/
theorem C06_displayWidth (cs : List Nat) (h : ∀ c ∈ cs, c < 2 ^ 21) (rest : List Nat) :
    ∀ (fuel w : Nat), (cs.flatMap Spec.utf8).length < fuel →
    displayWidth fuel (cs.flatMap Spec.utf8).length (cs.flatMap Spec.utf8 ++ rest) w
      = .ok (w + textWidth cs) := by
  induction cs with
  | nil =>
    intro fuel w hf
    cases fuel with
    | zero => simp at hf
    | succ f => simp [displayWidth, textWidth]
  | cons c cs ih =>
    intro fuel w hf
    have hc := h c (by simp)
    have ih := ih (fun c hc => h c (by simp [hc]))
    obtain ⟨b, t, hbt⟩ := utf8_cons c
    have hd := decode_utf8_spec c (cs.flatMap Spec.utf8 ++ rest) hc
    simp only [List.flatMap_cons, hbt, List.cons_append, List.length_cons, List.length_append,
      List.append_assoc] at hf hd ⊢
    cases fuel with
    | zero => omega
    | succ f =>
      simp only [displayWidth]
      rw [if_neg (by omega)]
      by_cases hb : b = 9
      · have hc9 : c = 9 ∧ t = [] := by
          rw [hb] at hd
          simp only [decodeUtf8] at hd
          rw [if_pos (by decide)] at hd
          simp only [Outcome.ok.injEq, Prod.mk.injEq] at hd
          refine ⟨hd.1.symm, ?_⟩
          have := congrArg List.length hd.2
          simp only [List.length_append] at this
          exact List.length_eq_zero_iff.1 (by omega)
        obtain ⟨rfl, rfl⟩ := hc9
        rw [if_pos hb]
        have := ih f (w + 8) (by simp only [List.length_nil] at hf; omega)
        simp only [List.length_nil, Nat.zero_add, Nat.add_sub_cancel, List.nil_append] at this ⊢
        rw [this]; simp only [textWidth, List.map_cons, List.sum_cons, if_true]; congr 1; omega
      · have h9 : c ≠ 9 := by
          intro h; subst h
          have e : Spec.utf8 9 = [9] := by decide
          rw [e] at hbt; cases hbt; exact hb rfl
        rw [if_neg hb, hd]
        simp only [List.length_append, List.length_cons]
        have e2 : t.length + (cs.flatMap Spec.utf8).length + 1 -
            (t.length + ((cs.flatMap Spec.utf8).length + rest.length) + 1 -
             ((cs.flatMap Spec.utf8).length + rest.length)) = (cs.flatMap Spec.utf8).length := by omega
        rw [e2, ih f _ (by omega)]
        simp only [textWidth, List.map_cons, List.sum_cons, h9, if_false]; congr 1; omega

/-- Non-vacuity: the text "a<TAB>é漢" is 1+8+1+2 columns wide. -/
example : textWidth [0x61, 9, 0xE9, 0x6F22] = 12 := by decide +kernel
example : Spec.InIntervals ident1Table 0x4E00 := ((C06_ident1_iff _).1 (by decide +kernel))

end Slimcc.Props
