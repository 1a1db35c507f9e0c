import Verif.Model.Lex
import Verif.Spec.Lex
/-! # C09: punctuators are split by maximal munch -/
set_option autoImplicit false
namespace Slimcc.Props
open Slimcc Slimcc.Lex

theorem readPunct_longest (c d e : Nat) (r : List Nat) (n : Nat)
    (h : readPunct false (c :: d :: e :: r) = .ok n) :
    Spec.IsLongest Spec.punctuators (c :: d :: e :: r) n := by
  simp only [readPunct, rd, List.getElem?_cons_zero, List.getElem?_cons_succ, Bool.toNat_false] at h
  simp only [Spec.IsLongest, Spec.punctuators, Spec.chars, List.map_cons, List.map_nil, List.mem_cons,
    List.not_mem_nil, or_false, exists_eq_or_imp, forall_eq_or_imp, List.cons_prefix_cons,
    List.nil_prefix, and_true, exists_eq_left, forall_eq, List.length_cons, List.length_nil]
  simp only [show Char.toNat '[' = 91 by rfl, show Char.toNat ']' = 93 by rfl,
    show Char.toNat '(' = 40 by rfl, show Char.toNat ')' = 41 by rfl, show Char.toNat '{' = 123 by rfl,
    show Char.toNat '}' = 125 by rfl, show Char.toNat '.' = 46 by rfl, show Char.toNat '-' = 45 by rfl,
    show Char.toNat '>' = 62 by rfl, show Char.toNat '+' = 43 by rfl, show Char.toNat '&' = 38 by rfl,
    show Char.toNat '*' = 42 by rfl, show Char.toNat '~' = 126 by rfl, show Char.toNat '!' = 33 by rfl,
    show Char.toNat '/' = 47 by rfl, show Char.toNat '%' = 37 by rfl, show Char.toNat '<' = 60 by rfl,
    show Char.toNat '=' = 61 by rfl, show Char.toNat '^' = 94 by rfl, show Char.toNat '|' = 124 by rfl,
    show Char.toNat '?' = 63 by rfl, show Char.toNat ':' = 58 by rfl, show Char.toNat ';' = 59 by rfl,
    show Char.toNat ',' = 44 by rfl, show Char.toNat '#' = 35 by rfl, show Char.toNat '@' = 64 by rfl,
    show Char.toNat '\\' = 92 by rfl, show Char.toNat '`' = 96 by rfl]
  have key : c = 45 ∨ c = 38 ∨ c = 43 ∨ c = 61 ∨ c = 124 ∨ c = 60 ∨ c = 62 ∨ c = 33 ∨ c = 37 ∨ c = 42 ∨
      c = 47 ∨ c = 94 ∨ c = 35 ∨ c = 46 ∨ c = 40 ∨ c = 41 ∨ c = 44 ∨ c = 58 ∨ c = 59 ∨ c = 63 ∨
      c = 64 ∨ c = 91 ∨ c = 92 ∨ c = 93 ∨ c = 96 ∨ c = 123 ∨ c = 125 ∨ c = 126 ∨
      (c ≠ 45 ∧ c ≠ 38 ∧ c ≠ 43 ∧ c ≠ 61 ∧ c ≠ 124 ∧ c ≠ 60 ∧ c ≠ 62 ∧ c ≠ 33 ∧ c ≠ 37 ∧ c ≠ 42 ∧
       c ≠ 47 ∧ c ≠ 94 ∧ c ≠ 35 ∧ c ≠ 46 ∧ c ≠ 40 ∧ c ≠ 41 ∧ c ≠ 44 ∧ c ≠ 58 ∧ c ≠ 59 ∧ c ≠ 63 ∧
       c ≠ 64 ∧ c ≠ 91 ∧ c ≠ 92 ∧ c ≠ 93 ∧ c ≠ 96 ∧ c ≠ 123 ∧ c ≠ 125 ∧ c ≠ 126) := by omega
  rcases key with k | k | k | k | k | k | k | k | k | k | k | k | k | k | k | k | k | k | k | k | k |
    k | k | k | k | k | k | k | ⟨a1, a2, a3, a4, a5, a6, a7, a8, a9, a10, a11, a12, a13, a14, a15, a16,
    a17, a18, a19, a20, a21, a22, a23, a24, a25, a26, a27, a28⟩ <;> first | subst c | skip
  case' inr.inr.inr.inr.inr.inr.inr.inr.inr.inr.inr.inr.inr.inr.inr.inr.inr.inr.inr.inr.inr.inr.inr.inr.inr.inr.inr.inr =>
    simp only [*, false_and, or_self, if_false, ite_self] at h
  all_goals simp at h
  case inr.inr.inr.inr.inr.inr.inr.inr.inr.inr.inr.inr.inr.inr.inr.inr.inr.inr.inr.inr.inr.inr.inr.inr.inr.inr.inr.inr =>
    subst h
    have b1 := a1.symm; have b2 := a2.symm; have b3 := a3.symm; have b4 := a4.symm
    have b5 := a5.symm; have b6 := a6.symm; have b7 := a7.symm; have b8 := a8.symm
    have b9 := a9.symm; have b10 := a10.symm; have b11 := a11.symm; have b12 := a12.symm
    have b13 := a13.symm; have b14 := a14.symm; have b15 := a15.symm; have b16 := a16.symm
    have b17 := a17.symm; have b18 := a18.symm; have b19 := a19.symm; have b20 := a20.symm
    have b21 := a21.symm; have b22 := a22.symm; have b23 := a23.symm; have b24 := a24.symm
    have b25 := a25.symm; have b26 := a26.symm; have b27 := a27.symm; have b28 := a28.symm
    simp [*]
  all_goals simp
  all_goals try simp only [Bool.toNat, Bool.cond_eq_ite, Bool.or_eq_true, decide_eq_true_eq] at h
  all_goals (repeat' split at h)
  all_goals try simp only [Outcome.ok.injEq] at h
  all_goals omega

theorem readPunct_short (c d : Nat) (h : ¬ (c = d)) (r : List Nat) :
    readPunct false (c :: d :: r) = readPunct false (c :: d :: 0 :: r) := by
  have h' : ¬ d = c := fun e => h e.symm
  simp [readPunct, rd, h']

/-- C09. At every position before the terminating NUL, the tokenizer recognises the longest
punctuator that is a prefix of the text, and reports none exactly when none starts there; it reads
nothing outside the buffer. -/
theorem C09_maximal_munch (c : Nat) (t tail : List Nat) (hz : ∀ b ∈ c :: t, b ≠ 0) :
    ∃ n, readPunct false (c :: t ++ 0 :: tail) = .ok n ∧
      Spec.IsLongest Spec.punctuators (c :: t) n := by
  have lift : ∀ (text more : List Nat) (n : Nat), (∀ b ∈ text, b ≠ 0) →
      Spec.IsLongest Spec.punctuators (text ++ 0 :: more) n →
      Spec.IsLongest Spec.punctuators text n := by
    intro text more n hz ⟨h1, h2⟩
    have nozero : ∀ q ∈ Spec.punctuators, ∀ b ∈ q, b ≠ 0 := by decide
    have cut : ∀ q ∈ Spec.punctuators, q <+: text ++ 0 :: more → q <+: text := by
      intro q hq hp
      by_cases hl : q.length ≤ text.length
      · exact List.prefix_of_prefix_length_le hp (List.prefix_append _ _) hl
      · exfalso
        have h0 : text ++ [0] <+: text ++ 0 :: more := by
          have e : text ++ 0 :: more = (text ++ [0]) ++ more := by simp
          rw [e]; exact List.prefix_append _ _
        have := List.prefix_of_prefix_length_le h0 hp (by simp; omega)
        exact nozero q hq 0 (this.subset (by simp)) rfl
    refine ⟨?_, fun q hq hp => h2 q hq (hp.trans (List.prefix_append _ _))⟩
    rcases h1 with h1 | ⟨q, hq, hp, hl⟩
    · exact Or.inl h1
    · exact Or.inr ⟨q, hq, cut q hq hp, hl⟩
  match t, hz with
  | [], hz =>
    have hc : c ≠ 0 := hz c (by simp)
    have e := readPunct_short c 0 hc tail
    have : ∃ n, readPunct false (c :: 0 :: 0 :: tail) = .ok n := by
      simp only [readPunct, rd, List.getElem?_cons_zero, List.getElem?_cons_succ]
      repeat' split
      all_goals exact ⟨_, rfl⟩
    obtain ⟨n, hn⟩ := this
    exact ⟨n, by simpa [e] using hn, lift [c] (0 :: tail) n hz (by simpa using readPunct_longest c 0 0 tail n hn)⟩
  | d :: t, hz =>
    have hd : ∃ e r, t ++ 0 :: tail = e :: r := by cases t <;> simp
    obtain ⟨e, r, he⟩ := hd
    have : ∃ n, readPunct false (c :: d :: e :: r) = .ok n := by
      simp only [readPunct, rd, List.getElem?_cons_zero, List.getElem?_cons_succ]
      repeat' split
      all_goals exact ⟨_, rfl⟩
    obtain ⟨n, hn⟩ := this
    refine ⟨n, by simp only [List.cons_append, he]; exact hn, lift (c :: d :: t) tail n hz ?_⟩
    simp only [List.cons_append, he]
    exact readPunct_longest c d e r n hn

/-- In assembler mode the only difference is that `$` is a punctuator. -/
theorem C09_asm_mode (c : Nat) (p : List Nat) (h : c ≠ 36) :
    readPunct true (c :: p) = readPunct false (c :: p) := by
  cases p <;> simp [readPunct, rd, h]

theorem C09_asm_dollar (d : Nat) (p : List Nat) :
    readPunct true (36 :: d :: p) = .ok 1 ∧ readPunct false (36 :: d :: p) = .ok 0 := by
  simp [readPunct, rd]

/-- Deviation (negative): the digraphs of C 6.4.6 (and C23's `::`) are not recognised, so maximal munch with the
full list of the standard fails for every one of them. -/
theorem C09_digraphs_not_recognised : ∀ q ∈ Spec.unsupportedPunctuators,
    ∃ n, readPunct false (q ++ [0]) = .ok n ∧ n < q.length ∧
      ¬ Spec.IsLongest (Spec.punctuators ++ Spec.unsupportedPunctuators) q n := by
  intro q hq
  have : ∃ n, readPunct false (q ++ [0]) = .ok n ∧ n < q.length := by
    have h1 : ∀ q ∈ Spec.unsupportedPunctuators, readPunct false (q ++ [0]) = .ok 1 ∧ 1 < q.length := by
      decide
    exact ⟨1, h1 q hq⟩
  obtain ⟨n, h1, h2⟩ := this
  refine ⟨n, h1, h2, fun h => ?_⟩
  have := h.2 q (by simp [hq]) (List.prefix_rfl)
  omega

/-- Non-vacuity: `>>=x`. -/
example : readPunct false [62, 62, 61, 120, 0] = .ok 3 := by decide

end Slimcc.Props
