import Verif.Lemmas.Source
/-! # C08: line splicing keeps physical line numbers -/
set_option autoImplicit false
namespace Slimcc.Props
open Slimcc Slimcc.Source

/-- What the in-place loop leaves in the buffer, for every NUL-free text (any bytes may follow the
terminator): no out-of-bounds access, and the C string `splice 0 t`; the bytes behind the old
terminator are untouched. -/
theorem C08_loop_result (t tail : List Nat) (hz : ∀ c ∈ t, c ≠ 0) :
    ∃ mem', removeBackslashNewline (t ++ 0 :: tail) = .ok mem' ∧ cstr mem' = splice 0 t ∧
      mem'.length = (t ++ 0 :: tail).length ∧ mem'.drop (t.length + 1) = tail := by
  have hcz : ∀ c ∈ splice 0 t, c ≠ 0 := by
    intro c hc e; subst e
    rcases splice_mem hc with h | h
    · simp at h
    · exact hz 0 h rfl
  rcases strchr_spec 92 tail t 0 hz (by decide) with ⟨h1, h2⟩ | ⟨a, b, h1, h2, h3⟩
  · refine ⟨t ++ 0 :: tail, by simp [removeBackslashNewline, h1], ?_, rfl, by simp⟩
    have : splice 0 t = t := by have := splice_append_no92 t [] h2; simpa [splice] using this
    rw [this]
    exact cstr_append_zero t tail hz
  · obtain ⟨m, p1, p2, p3, p4⟩ := spliceLoop_spec tail _ (92 :: b) (t ++ 0 :: tail) a.length a.length 0
      ((t ++ 0 :: tail).length + 1) (Nat.le_refl _) (by omega) (by rw [h1]; simp)
      (fun c hc => hz c (by rw [h1]; simp only [List.mem_append]; exact Or.inr hc)) (by rw [h1]; simp; omega)
    refine ⟨m, by simp only [removeBackslashNewline, h3, Nat.zero_add]; exact p1, ?_, p3, ?_⟩
    · have e : splice 0 t = a ++ splice 0 (92 :: b) := by rw [h1, splice_append_no92 _ _ h2]
      apply cstr_of_take (k := a.length + (splice 0 (92 :: b)).length + 1) _ hcz
      rw [p2, e, h1]; simp
    · rw [← p4, h1]; simp only [List.length_append, List.length_cons]

theorem splice_noNewlines (t : List Nat) (n : Nat) :
    Spec.noNewlines (splice n t) = Spec.noNewlines (Spec.unsplice t) := by
  unfold Spec.noNewlines
  fun_induction splice n t with
  | case1 => rfl
  | case2 n r ih => rw [ih]; rfl
  | case3 n r ih =>
    have : Spec.unsplice (10 :: r) = 10 :: Spec.unsplice r := rfl
    rw [this, List.filter_append]
    simpa using ih
  | case4 n c r h1 h2 ih =>
    have : Spec.unsplice (c :: r) = c :: Spec.unsplice r := by
      rw [Spec.unsplice.eq_def]; split
      · simp at *
      · rename_i heq; simp at heq; exact absurd heq.2 (fun e => h1 _ heq.1 e)
      · rename_i heq; simp at heq; rw [heq.1, heq.2]
    rw [this, List.filter_cons, List.filter_cons, ih]

/-- C08 (a). Ignoring newlines, the buffer afterwards holds the text with all backslash-newline
pairs deleted (translation phase 2). -/
theorem C08_text (t tail mem' : List Nat) (hz : ∀ c ∈ t, c ≠ 0)
    (h : removeBackslashNewline (t ++ 0 :: tail) = .ok mem') :
    Spec.noNewlines (cstr mem') = Spec.noNewlines (Spec.unsplice t) := by
  obtain ⟨m, h1, h2, _⟩ := C08_loop_result t tail hz
  rw [h] at h1; cases h1
  rw [h2, splice_noNewlines]

theorem splice_line : ∀ (a b : List Nat) (n : Nat), a.getLast? ≠ some 92 →
    splice n (a ++ 10 :: b) = splice n (a ++ [10]) ++ splice 0 b ∧
    Spec.newlines (splice n (a ++ [10])) = n + Spec.newlines (a ++ [10]) := by
  intro a
  induction h : a.length using Nat.strongRecOn generalizing a with
  | _ k ih =>
    intro b n hlast
    cases a with
    | nil =>
      simp only [List.nil_append, splice_nl, splice]
      refine ⟨by simp, ?_⟩
      simp [Spec.newlines, List.count_append]
    | cons c a =>
      have hl' : a.getLast? ≠ some 92 ∨ a = [] := by
        cases a with
        | nil => exact Or.inr rfl
        | cons x xs => left; simpa [List.getLast?_cons_cons] using hlast
      by_cases hpair : ∃ r', c = 92 ∧ a = 10 :: r'
      · obtain ⟨r', rfl, rfl⟩ := hpair
        have hr : r'.getLast? ≠ some 92 := by
          cases r' with
          | nil => simp
          | cons x xs => simpa [List.getLast?_cons_cons] using hlast
        obtain ⟨h1, h2⟩ := ih r'.length (by simp at h; omega) r' rfl b (n + 1) hr
        simp only [List.cons_append, splice_pair]
        refine ⟨h1, ?_⟩
        rw [h2]; simp [Spec.newlines, List.count_cons]; try omega
      · have hnp : ∀ s r', ¬ (c = 92 ∧ a ++ 10 :: s = 10 :: r') := by
          rintro s r' ⟨rfl, he⟩
          cases a with
          | nil => simp at hlast
          | cons x xs => simp at he; exact hpair ⟨xs, rfl, by rw [he.1]⟩
        by_cases h10 : c = 10
        · subst h10
          rcases hl' with hl' | rfl
          · obtain ⟨h1, h2⟩ := ih a.length (by simp at h; omega) a rfl b 0 hl'
            simp only [List.cons_append, splice_nl]
            refine ⟨by rw [h1]; simp, ?_⟩
            unfold Spec.newlines at *
            rw [List.count_append, List.count_cons, h2]; simp; try omega
          · simp only [List.cons_append, List.nil_append, splice_nl, splice]
            refine ⟨by simp, ?_⟩
            simp [Spec.newlines, List.count_append]
        · have e1 := splice_other n c (a ++ 10 :: b) h10 (hnp b)
          have e2 := splice_other n c (a ++ [10]) h10 (hnp [])
          rw [List.cons_append, List.cons_append, e1, e2]
          rcases hl' with hl' | rfl
          · obtain ⟨h1, h2⟩ := ih a.length (by simp at h; omega) a rfl b n hl'
            refine ⟨by rw [h1]; simp, ?_⟩
            unfold Spec.newlines at *
            rw [List.count_cons, List.count_cons, h2]; simp; try omega
          · simp only [List.nil_append, splice_nl, splice]
            refine ⟨by simp, ?_⟩
            simp [Spec.newlines, List.count_append, List.count_cons]; omega

/-- C08 (b). Line numbers. Split the file at any real line end (a newline not preceded by a
backslash): the text up to and including it and the text after it are rewritten independently, and
the first part keeps its number of newlines. So the text following any real line end keeps its
physical line number. -/
theorem C08_line_numbers (a b tail mem' : List Nat) (hz : ∀ c ∈ a ++ 10 :: b, c ≠ 0)
    (hreal : a.getLast? ≠ some 92)
    (h : removeBackslashNewline (a ++ 10 :: b ++ 0 :: tail) = .ok mem') :
    ∃ first second, cstr mem' = first ++ second ∧
      Spec.newlines first = Spec.newlines (a ++ [10]) ∧
      (∃ m, removeBackslashNewline (a ++ [10] ++ 0 :: tail) = .ok m ∧ cstr m = first) ∧
      (∃ m, removeBackslashNewline (b ++ 0 :: tail) = .ok m ∧ cstr m = second) := by
  obtain ⟨m, h1, h2, _⟩ := C08_loop_result _ tail hz
  rw [h] at h1; cases h1
  obtain ⟨e1, e2⟩ := splice_line a b 0 hreal
  refine ⟨splice 0 (a ++ [10]), splice 0 b, by rw [h2, e1], by rw [e2]; omega, ?_, ?_⟩
  · obtain ⟨m, x, y, _⟩ := C08_loop_result (a ++ [10]) tail
      (fun c hc => hz c (by simp at hc ⊢; rcases hc with hc | hc <;> simp [hc]))
    exact ⟨m, x, y⟩
  · obtain ⟨m, x, y, _⟩ := C08_loop_result b tail (fun c hc => hz c (by simp [hc]))
    exact ⟨m, x, y⟩

/-- C08 (c). A file whose last line end is real keeps its total number of newlines. -/
theorem C08_total_newlines (a tail mem' : List Nat) (hz : ∀ c ∈ a ++ [10], c ≠ 0)
    (hreal : a.getLast? ≠ some 92)
    (h : removeBackslashNewline (a ++ [10] ++ 0 :: tail) = .ok mem') :
    Spec.newlines (cstr mem') = Spec.newlines (a ++ [10]) := by
  obtain ⟨m, h1, h2, _⟩ := C08_loop_result _ tail hz
  rw [h] at h1; cases h1
  rw [h2, (splice_line a [] 0 hreal).2]; omega

/-- C08 (d), deviation (negative): a file ending in backslash-newline ends up without a final
newline (the pending newlines are dropped), although every file is read so as to end with one. -/
theorem C08_trailing_splice_loses_newline :
    ∃ mem', removeBackslashNewline [97, 92, 10, 0] = .ok mem' ∧
      Spec.newlines (cstr mem') = 0 ∧ Spec.newlines [97, 92, 10] = 1 ∧ mem' = [97, 0, 10, 0] := by
  exact ⟨[97, 0, 10, 0], by decide⟩

/-- Non-vacuity: "a\⏎b\⏎c⏎d⏎" becomes "abc⏎⏎⏎d⏎". -/
example : removeBackslashNewline [97, 92, 10, 98, 92, 10, 99, 10, 100, 10, 0] =
    .ok [97, 98, 99, 10, 10, 10, 100, 10, 0, 10, 0] := by decide

end Slimcc.Props
