import Verif.Model.Driver
import Verif.Spec.Make
set_option autoImplicit false
/-!
C46 Makefile quoting is reversible and in bounds.
-/
namespace Slimcc.Props
open Slimcc Slimcc.Driver Slimcc.Spec

/-- The quoting, with or without that of `#` and `$`; `k` backslashes precede. -/
def qf (h d : Bool) : Nat → Str → Str
  | _, [] => []
  | k, c :: r =>
    if c = 36 then (if d then [36, 36] else [36]) ++ qf h d 0 r
    else if c = 35 then (if h then [92, 35] else [35]) ++ qf h d 0 r
    else if c = 32 ∨ c = 9 then List.replicate k 92 ++ (92 :: c :: qf h d 0 r)
    else if c = 92 then 92 :: qf h d (k + 1) r
    else c :: qf h d 0 r

theorem put_ok {cap : Nat} {buf : Str} {c : Nat} (h : buf.length < cap) : put cap buf c = .ok (buf ++ [c]) := if_pos h

theorem putSlashes_ok {cap : Nat} : ∀ (n : Nat) (buf : Str), buf.length + n ≤ cap → putSlashes cap n buf = .ok (buf ++ List.replicate n 92)
  | 0, buf, _ => by rw [putSlashes]; simp
  | n + 1, buf, h => by
    rw [putSlashes, put_ok (by omega)]
    show putSlashes cap n (buf ++ [92]) = _
    rw [putSlashes_ok n _ (by simp; omega), List.replicate_succ, List.append_assoc]; rfl

theorem quoteFrom_ok {cap : Nat} : ∀ (s pre buf : Str) (k : Nat), (pre.takeWhile (· == 92)).length = k → buf.length + k + 2 * s.length ≤ cap →
    quoteFrom cap pre buf s = .ok (buf ++ qf true true k s) ∧ (buf ++ qf true true k s).length ≤ cap
  | [], pre, buf, k, hk, hc => by
    rw [quoteFrom, qf, List.append_nil]
    exact ⟨rfl, by simp at hc; omega⟩
  | c :: s, pre, buf, k, hk, hc => by
    simp only [List.length_cons] at hc
    by_cases h1 : c = 36
    · have ih := quoteFrom_ok (cap := cap) s (c :: pre) (buf ++ [36] ++ [36]) 0 (by rw [h1]; rfl) (by simp; omega)
      rw [quoteFrom, if_pos h1, put_ok (by omega)]
      show (do let b ← put cap (buf ++ [36]) 36; quoteFrom cap (c :: pre) b s) = _ ∧ _
      rw [put_ok (by simp; omega)]
      show quoteFrom cap (c :: pre) (buf ++ [36] ++ [36]) s = _ ∧ _
      rw [qf, if_pos h1]
      simpa [List.append_assoc] using ih
    · by_cases h2 : c = 35
      · have ih := quoteFrom_ok (cap := cap) s (c :: pre) (buf ++ [92] ++ [35]) 0 (by rw [h2]; rfl) (by simp; omega)
        rw [quoteFrom, if_neg h1, if_pos h2, put_ok (by omega)]
        show (do let b ← put cap (buf ++ [92]) 35; quoteFrom cap (c :: pre) b s) = _ ∧ _
        rw [put_ok (by simp; omega)]
        show quoteFrom cap (c :: pre) (buf ++ [92] ++ [35]) s = _ ∧ _
        rw [qf, if_neg h1, if_pos h2]
        simpa [List.append_assoc] using ih
      · by_cases h3 : c = 32 ∨ c = 9
        · have ih := quoteFrom_ok (cap := cap) s (c :: pre) (buf ++ List.replicate k 92 ++ [92] ++ [c]) 0
            (by rcases h3 with h | h <;> rw [h] <;> rfl) (by simp; omega)
          rw [quoteFrom, if_neg h1, if_neg h2, if_pos h3, hk, putSlashes_ok k buf (by omega)]
          show (do let b ← put cap (buf ++ List.replicate k 92) 92; let b ← put cap b c; quoteFrom cap (c :: pre) b s) = _ ∧ _
          rw [put_ok (by simp; omega)]
          show (do let b ← put cap (buf ++ List.replicate k 92 ++ [92]) c; quoteFrom cap (c :: pre) b s) = _ ∧ _
          rw [put_ok (by simp; omega)]
          show quoteFrom cap (c :: pre) (buf ++ List.replicate k 92 ++ [92] ++ [c]) s = _ ∧ _
          rw [qf, if_neg h1, if_neg h2, if_pos h3]
          simpa [List.append_assoc] using ih
        · rw [quoteFrom, if_neg h1, if_neg h2, if_neg h3, put_ok (by omega)]
          show quoteFrom cap (c :: pre) (buf ++ [c]) s = _ ∧ _
          rw [qf, if_neg h1, if_neg h2, if_neg h3]
          by_cases h4 : c = 92
          · have ih := quoteFrom_ok (cap := cap) s (c :: pre) (buf ++ [c]) (k + 1) (by rw [h4]; simp [hk]) (by simp; omega)
            rw [if_pos h4]
            rw [h4] at ih ⊢
            simpa [List.append_assoc] using ih
          · have ih := quoteFrom_ok (cap := cap) s (c :: pre) (buf ++ [c]) 0 (by simp [h4]) (by simp; omega)
            rw [if_neg h4]
            simpa [List.append_assoc] using ih

theorem quote_eq (s : Str) : quoteMakefile s = .ok (qf true true 0 s) := by
  have h := quoteFrom_ok (cap := s.length * 2 + 1) s [] [] 0 rfl (by simp; omega)
  have h2 := quoteFrom_ok (cap := s.length * 2) s [] [] 0 rfl (by simp; omega)
  unfold quoteMakefile
  rw [h.1]
  rw [List.nil_append] at h2
  show (if ([] ++ qf true true 0 s).length < _ then _ else _) = _
  rw [List.nil_append, if_pos (by have := h2.2; omega)]

/-- The buffer of twice the length plus one is large enough, for every name. -/
theorem C46_in_bounds (s : Str) : ∃ q, quoteMakefile s = .ok q := ⟨_, quote_eq s⟩

/-- The first step of make. -/
theorem uncomment (t : Str) (f : Nat) (hf : f ≠ 92 ∧ f ≠ 35) : ∀ (s : Str) (k : Nat), (∀ a b, s ≠ a ++ 92 :: 35 :: b) → (k ≠ 0 → s.head? ≠ some 35) →
    (unquote (fun c => c == 35) k (qf true true k s ++ f :: t)).1 = List.replicate k 92 ++ (qf false true k s ++ f :: (unquote (fun c => c == 35) 0 t).1)
  | [], k, _, _ => by
    rw [qf, qf]
    show (unquote _ k (f :: t)).1 = _
    rw [unquote, if_neg hf.1, if_neg (by simp [hf.2])]
    simp [addFront]
  | c :: s, k, ha, hk => by
    have ha' : ∀ a b, s ≠ a ++ 92 :: 35 :: b := fun a b e => ha (c :: a) b (by rw [e]; rfl)
    have run : ∀ (n : Nat) (j : Nat) (x : Str), unquote (fun c => c == 35) j (List.replicate n 92 ++ x) = unquote (fun c => c == 35) (j + n) x := by
      intro n
      induction n with
      | zero => intro j x; rfl
      | succ n ih =>
        intro j x
        rw [List.replicate_succ, List.cons_append, unquote, if_pos rfl, ih]
        congr 1; omega
    by_cases h1 : c = 36
    · have ih := uncomment t f hf s 0 ha' (fun h => absurd rfl h)
      rw [qf, qf, if_pos h1, if_pos h1]
      show (unquote _ k (36 :: 36 :: (qf true true 0 s ++ f :: t))).1 = _ ++ (36 :: 36 :: (qf false true 0 s ++ _))
      rw [unquote, if_neg (by decide), if_neg (by decide), unquote, if_neg (by decide), if_neg (by decide)]
      simp only [addFront]
      rw [ih]
      simp
    · by_cases h2 : c = 35
      · have ih := uncomment t f hf s 0 ha' (fun h => absurd rfl h)
        have hk0 : k = 0 := by
          by_cases h : k = 0
          · exact h
          · exact absurd (by rw [h2]; rfl) (hk h)
        rw [qf, qf, if_neg h1, if_neg h1, if_pos h2, if_pos h2, hk0]
        show (unquote _ 0 (92 :: 35 :: (qf true true 0 s ++ f :: t))).1 = _ ++ (35 :: (qf false true 0 s ++ _))
        rw [unquote, if_pos rfl, unquote, if_neg (by decide), if_pos (by decide), if_pos (by decide)]
        simp only [addFront]
        rw [ih]
        simp
      · by_cases h3 : c = 32 ∨ c = 9
        · have ih := uncomment t f hf s 0 ha' (fun h => absurd rfl h)
          have hc : c ≠ 92 ∧ c ≠ 35 := by rcases h3 with h | h <;> rw [h] <;> decide
          rw [qf, qf, if_neg h1, if_neg h1, if_neg h2, if_neg h2, if_pos h3, if_pos h3, List.append_assoc, run]
          show (unquote _ (k + k) (92 :: c :: (qf true true 0 s ++ f :: t))).1 = _
          rw [unquote, if_pos rfl, unquote, if_neg hc.1, if_neg (by simp [hc.2])]
          simp only [addFront]
          rw [ih]
          simp only [List.replicate_succ', ← List.replicate_append_replicate, List.append_assoc, List.cons_append, List.nil_append, List.replicate_zero]
        · by_cases h4 : c = 92
          · have ih := uncomment t f hf s (k + 1) ha' (fun _ h => by
              cases s with
              | nil => cases h
              | cons x s => exact ha [] s (by rw [h4, show x = 35 from Option.some.inj h]; rfl))
            rw [qf, qf, if_neg h1, if_neg h1, if_neg h2, if_neg h2, if_neg h3, if_neg h3, if_pos h4, if_pos h4]
            rw [List.cons_append, unquote, if_pos rfl, ih, List.replicate_succ']
            simp
          · have ih := uncomment t f hf s 0 ha' (fun h => absurd rfl h)
            rw [qf, qf, if_neg h1, if_neg h1, if_neg h2, if_neg h2, if_neg h3, if_neg h3, if_neg h4, if_neg h4]
            rw [List.cons_append, unquote, if_neg h4, if_neg (by simp [h2])]
            simp only [addFront]
            rw [ih]
            simp

theorem dollars_cons {c : Nat} (h : c ≠ 36) (x : Str) : dollars (c :: x) = c :: dollars x := by
  cases x with
  | nil => simp [dollars, h]
  | cons d x => rw [dollars, if_neg h]

theorem dollars_slashes (n : Nat) (x : Str) : dollars (List.replicate n 92 ++ x) = List.replicate n 92 ++ dollars x := by
  induction n with
  | zero => rfl
  | succ n ih => rw [List.replicate_succ, List.cons_append, dollars_cons (by decide), ih]; rfl

theorem undollar (t : Str) (f : Nat) (hf : f ≠ 36) : ∀ (s : Str) (k : Nat), dollars (qf false true k s ++ f :: t) = qf false false k s ++ f :: dollars t
  | [], k => by rw [qf, qf]; exact dollars_cons hf t
  | c :: s, k => by
    have ih := undollar t f hf s
    rw [qf, qf]
    by_cases h1 : c = 36
    · rw [if_pos h1, if_pos h1]
      show dollars (36 :: 36 :: (qf false true 0 s ++ f :: t)) = 36 :: (qf false false 0 s ++ _)
      rw [dollars, if_pos rfl, if_pos rfl, ih]
    · rw [if_neg h1, if_neg h1]
      by_cases h2 : c = 35
      · rw [if_pos h2, if_pos h2]
        show dollars (35 :: (qf false true 0 s ++ f :: t)) = 35 :: (qf false false 0 s ++ _)
        rw [dollars_cons (by decide), ih]
      · rw [if_neg h2, if_neg h2]
        by_cases h3 : c = 32 ∨ c = 9
        · rw [if_pos h3, if_pos h3, List.append_assoc, dollars_slashes, List.cons_append, dollars_cons (by decide), List.cons_append, dollars_cons h1, ih]
          simp
        · rw [if_neg h3, if_neg h3]
          by_cases h4 : c = 92
          · rw [if_pos h4, if_pos h4, List.cons_append, dollars_cons (by decide), ih]; rfl
          · rw [if_neg h4, if_neg h4, List.cons_append, dollars_cons h1, ih]; rfl

theorem unblank (t : Str) (f : Nat) (hf : f = 32 ∨ f = 9 ∨ f = 58) : ∀ (s : Str) (k : Nat), 58 ∉ s → (s = [] → k = 0) → s.getLast? ≠ some 92 →
    (unquote (fun c => c == 32 || c == 9 || c == 58) k (qf false false k s ++ f :: t)).1 = List.replicate k 92 ++ s
  | [], k, _, hk, _ => by
    rw [qf, hk rfl]
    show (unquote _ 0 (f :: t)).1 = _
    rw [unquote, if_neg (by rcases hf with h | h | h <;> rw [h] <;> decide), if_pos (by rcases hf with h | h | h <;> rw [h] <;> decide), if_neg (by decide)]
    rfl
  | c :: s, k, hc, hk, hl => by
    have hc' : 58 ∉ s := fun h => hc (List.mem_cons_of_mem _ h)
    have h58 : c ≠ 58 := fun h => hc (by rw [h]; exact List.mem_cons_self ..)
    have hl' : s.getLast? ≠ some 92 := by
      cases s with
      | nil => simp
      | cons x s => rw [List.getLast?_cons_cons] at hl; exact hl
    have run : ∀ (n : Nat) (j : Nat) (x : Str), unquote (fun c => c == 32 || c == 9 || c == 58) j (List.replicate n 92 ++ x) = unquote (fun c => c == 32 || c == 9 || c == 58) (j + n) x := by
      intro n
      induction n with
      | zero => intro j x; rfl
      | succ n ih =>
        intro j x
        rw [List.replicate_succ, List.cons_append, unquote, if_pos rfl, ih]
        congr 1; omega
    have plain : ∀ c, c ≠ 92 → ¬ (c = 32 ∨ c = 9) → c ≠ 58 →
        (unquote (fun c => c == 32 || c == 9 || c == 58) k (c :: (qf false false 0 s ++ f :: t))).1 = List.replicate k 92 ++ c :: s := by
      intro c h1 h2 h3
      rw [unquote, if_neg h1, if_neg (by simp; simp at h2; exact ⟨h2, h3⟩)]
      simp only [addFront]
      rw [unblank t f hf s 0 hc' (fun _ => rfl) hl']
      simp
    rw [qf]
    by_cases h1 : c = 36
    · rw [if_pos h1]
      show (unquote _ k (36 :: (qf false false 0 s ++ f :: t))).1 = _
      rw [plain 36 (by decide) (by decide) (by decide), h1]
    · rw [if_neg h1]
      by_cases h2 : c = 35
      · rw [if_pos h2]
        show (unquote _ k (35 :: (qf false false 0 s ++ f :: t))).1 = _
        rw [plain 35 (by decide) (by decide) (by decide), h2]
      · rw [if_neg h2]
        by_cases h3 : c = 32 ∨ c = 9
        · rw [if_pos h3, List.append_assoc, run]
          show (unquote _ (k + k) (92 :: c :: (qf false false 0 s ++ f :: t))).1 = _
          rw [unquote, if_pos rfl, unquote, if_neg (by rcases h3 with h | h <;> rw [h] <;> decide), if_pos (by rcases h3 with h | h <;> rw [h] <;> decide), if_pos (by omega)]
          simp only [addFront]
          rw [unblank t f hf s 0 hc' (fun _ => rfl) hl', show (k + k + 1) / 2 = k by omega]
          simp
        · rw [if_neg h3]
          by_cases h4 : c = 92
          · rw [if_pos h4, List.cons_append, unquote, if_pos rfl,
              unblank t f hf s (k + 1) hc' (fun h => by rw [h, h4] at hl; exact absurd rfl hl) hl', List.replicate_succ', h4]
            simp
          · rw [if_neg h4]
            exact plain c h4 h3 h58

theorem qf_newline (h d : Bool) : ∀ (s : Str) (k : Nat), 10 ∉ s → ∀ c ∈ qf h d k s, (c != 10) = true
  | [], _, _, c, hc => by rw [qf] at hc; cases hc
  | x :: s, k, hn, c, hc => by
    have hx : x ≠ 10 := fun h => hn (by rw [h]; exact List.mem_cons_self ..)
    have hn' : 10 ∉ s := fun h => hn (List.mem_cons_of_mem _ h)
    have ih := fun k => qf_newline h d s k hn' c
    rw [qf] at hc
    split at hc
    · cases d <;> simp at hc <;> rcases hc with rfl | hc <;> first | decide | exact ih 0 hc
    · split at hc
      · cases h <;> simp at hc
        · rcases hc with rfl | hc
          · decide
          · exact ih 0 hc
        · rcases hc with rfl | rfl | hc
          · decide
          · decide
          · exact ih 0 hc
      · split at hc
        · simp at hc
          rcases hc with ⟨_, rfl⟩ | rfl | rfl | hc
          · decide
          · decide
          · simpa using hx
          · exact ih 0 hc
        · split at hc
          · rcases List.mem_cons.1 hc with rfl | hc
            · decide
            · exact ih (k + 1) hc
          · rcases List.mem_cons.1 hc with rfl | hc
            · simpa using hx
            · exact ih 0 hc

/-- Make reads the quoted name back, whatever follows it after a blank or a colon. Left out are names with a newline or a colon,
names that end with a backslash, and names in which a backslash comes directly before `#`. -/
theorem C46_round_trip (s : Str) (h10 : 10 ∉ s) (h58 : 58 ∉ s) (hl : s.getLast? ≠ some 92) (hh : ∀ a b, s ≠ a ++ 92 :: 35 :: b)
    (f : Nat) (hf : f = 32 ∨ f = 9 ∨ f = 58) (rest : Str) : ∃ q, quoteMakefile s = .ok q ∧ makeName (q ++ f :: rest) = s := by
  refine ⟨_, quote_eq s, ?_⟩
  unfold makeName
  dsimp only
  have hf10 : (f != 10) = true := by rcases hf with h | h | h <;> rw [h] <;> decide
  rw [List.takeWhile_append_of_pos (fun c hc => qf_newline true true s 0 h10 c hc), List.takeWhile_cons_of_pos (p := fun c => c != 10) hf10]
  rw [uncomment _ f (by rcases hf with h | h | h <;> rw [h] <;> decide) s 0 hh (fun h => absurd rfl h)]
  rw [List.replicate_zero, List.nil_append, undollar _ f (by rcases hf with h | h | h <;> rw [h] <;> decide)]
  exact unblank _ f hf s 0 h58 (fun _ => rfl) hl

/-- The name `a\\ $b #` meets the hypotheses; its quoted form. -/
example : quoteMakefile [97, 92, 92, 32, 36, 98, 35] = .ok [97, 92, 92, 92, 92, 92, 32, 36, 36, 98, 92, 35] ∧
    makeName ([97, 92, 92, 92, 92, 92, 32, 36, 36, 98, 92, 35] ++ 32 :: [120]) = [97, 92, 92, 32, 36, 98, 35] := ⟨rfl, rfl⟩

/-- A backslash before `#` is not doubled: `a\#b` is read back as `a\`. -/
theorem C46_backslash_hash_lost : quoteMakefile [97, 92, 35, 98] = .ok [97, 92, 92, 35, 98] ∧ makeName ([97, 92, 92, 35, 98] ++ [32]) = [97, 92] := ⟨rfl, rfl⟩

/-- A colon is not quoted. -/
theorem C46_colon_lost : quoteMakefile [97, 58, 98] = .ok [97, 58, 98] ∧ makeName ([97, 58, 98] ++ [32]) = [97] := ⟨rfl, rfl⟩

/-- The prerequisites are written without quoting: of `a b` make reads `a` (`makeName` on the second line of the rule, after
the two blanks). -/
theorem C46_prerequisites_not_quoted : prerequisite [97, 32, 98] = [32, 92, 10, 32, 32] ++ [97, 32, 98] ∧ makeName ([97, 32, 98] ++ [10]) = [97] := ⟨rfl, rfl⟩

end Slimcc.Props
