import Verif.Lemmas.Source
/-! # C07: newline canonicalisation preserves text and lines -/
set_option autoImplicit false
namespace Slimcc.Props
open Slimcc Slimcc.Source

/-- C07 (a). For every file content `t` (no NUL byte) in a NUL-terminated buffer, with any bytes
after the terminator: the rewriting stays inside the buffer and leaves the C string in which each
CR LF and each lone CR is one LF, and nothing else changed. -/
theorem C07_canonicalize (t tail : List Nat) (hz : ∀ c ∈ t, c ≠ 0) :
    ∃ mem', canonicalizeNewline (t ++ 0 :: tail) = .ok mem' ∧ cstr mem' = Spec.crlf t ∧
      mem'.length = (t ++ 0 :: tail).length ∧ mem'.drop (t.length + 1) = tail := by
  have hcz : ∀ c ∈ Spec.crlf t, c ≠ 0 := by
    intro c hc e; subst e
    rcases crlf_mem hc with h | ⟨h, _⟩
    · simp at h
    · exact hz 0 h rfl
  rcases strchr_spec 13 tail t 0 hz (by decide) with ⟨h1, h2⟩ | ⟨a, b, h1, h2, h3⟩
  · refine ⟨t ++ 0 :: tail, by simp [canonicalizeNewline, h1], ?_, rfl, by simp⟩
    have : Spec.crlf t = t := by have := crlf_append t [] h2; simpa [Spec.crlf] using this
    rw [this]
    exact cstr_append_zero t tail hz
  · obtain ⟨m, p1, p2, p3, p4⟩ := canonLoop_spec tail _ (13 :: b) (t ++ 0 :: tail) a.length a.length
      ((t ++ 0 :: tail).length + 1) (Nat.le_refl _) (Nat.le_refl _) (by rw [h1]; simp)
      (fun c hc => hz c (by rw [h1]; simp only [List.mem_append]; exact Or.inr hc)) (by rw [h1]; simp; omega)
    refine ⟨m, by simp only [canonicalizeNewline, h3, Nat.zero_add]; exact p1, ?_, p3, ?_⟩
    · have e : Spec.crlf t = a ++ Spec.crlf (13 :: b) := by rw [h1, crlf_append _ _ h2]
      apply cstr_of_take (k := a.length + (Spec.crlf (13 :: b)).length + 1) _ hcz
      rw [p2, e, h1]; simp
    · rw [← p4, h1]; simp only [List.length_append, List.length_cons]

/-- C07 (b). The result has no CR. -/
theorem C07_no_cr (t : List Nat) : 13 ∉ Spec.crlf t := by
  intro h
  rcases crlf_mem h with h | ⟨_, h⟩
  · simp at h
  · exact h rfl

/-- C07 (c). Line structure: the number of LF in the result is the number of line ends (CR LF, CR
or LF) of the file. -/
theorem C07_line_count (t : List Nat) : (Spec.crlf t).count 10 = Spec.lineEnds t := by
  fun_induction Spec.crlf t with
  | case1 => rfl
  | case2 r ih => simp [Spec.lineEnds, ih]
  | case3 r h ih =>
    rw [Spec.lineEnds.eq_def]; split
    · simp at *
    · rename_i heq; simp at heq; exact absurd heq (h _)
    · rename_i heq; simp at heq; subst heq; simp [ih]
    · rename_i heq; simp at heq
    · rename_i h1 h2 heq; simp at heq; exact absurd heq.1.symm (by rintro rfl; simp_all)
  | case4 c r h1 h2 ih =>
    rw [Spec.lineEnds.eq_def]; split
    · simp at *
    · rename_i heq; simp at heq; exact absurd heq.1 (fun e => h2 e)
    · rename_i heq; simp at heq; exact absurd heq.1 (fun e => h2 e)
    · rename_i heq; simp at heq; obtain ⟨rfl, rfl⟩ := heq; simp [ih]
    · rename_i h3 h4 h5 heq; simp at heq; obtain ⟨rfl, rfl⟩ := heq
      rw [List.count_cons]; simp [ih]; exact fun e => h5 e

/-- C07 (d). Idempotence. -/
theorem C07_idempotent (t : List Nat) : Spec.crlf (Spec.crlf t) = Spec.crlf t := by
  have := crlf_append (Spec.crlf t) [] (C07_no_cr t)
  simpa [Spec.crlf] using this

/-- Non-vacuity: "a\r\nb\rc\n\r" is rewritten to "a\nb\nc\n\n" in place. -/
example : canonicalizeNewline [97, 13, 10, 98, 13, 99, 10, 13, 0] = .ok [97, 10, 98, 10, 99, 10, 10, 0, 0] := by
  decide

end Slimcc.Props
