import Verif.Model.Source
import Verif.Spec.Source
set_option autoImplicit false
namespace Slimcc.Source
open Slimcc

theorem drop_set_lt {mem : List Nat} {q p x : Nat} (h : q < p) : (mem.set q x).drop p = mem.drop p := by
  rw [List.drop_set]; simp [h]

theorem take_set_succ {mem : List Nat} {q x : Nat} (h : q < mem.length) :
    (mem.set q x).take (q + 1) = mem.take q ++ [x] := by
  rw [List.set_eq_take_append_cons_drop]
  rw [if_pos h]
  have : (mem.take q).length = q := by simp; omega
  rw [List.take_append, this]
  simp [List.take_take]

theorem getElem?_of_drop {mem r : List Nat} {p c : Nat} (h : mem.drop p = c :: r) : mem[p]? = some c := by
  have := congrArg (·[0]?) h
  simpa using this

theorem lt_of_drop {mem r : List Nat} {p c : Nat} (h : mem.drop p = c :: r) : p < mem.length := by
  have := congrArg List.length h
  simp at this; omega

theorem drop_succ {mem r : List Nat} {p c : Nat} (h : mem.drop p = c :: r) : mem.drop (p + 1) = r := by
  have := congrArg (List.drop 1) h
  simpa [List.drop_drop] using this

theorem wr_ok {mem : List Nat} {q x : Nat} (h : q < mem.length) : wr mem q x = .ok (mem.set q x) := by
  unfold wr; rw [if_pos h]

theorem canonLoop_spec (tail : List Nat) : ∀ (n : Nat) (rest mem : List Nat) (p q fuel : Nat),
    rest.length ≤ n → q ≤ p → mem.drop p = rest ++ 0 :: tail → (∀ c ∈ rest, c ≠ 0) →
    rest.length < fuel →
    ∃ mem', canonLoop fuel mem p q = .ok mem' ∧
      mem'.take (q + (Spec.crlf rest).length + 1) = mem.take q ++ Spec.crlf rest ++ [0] ∧
      mem'.length = mem.length ∧ mem'.drop (p + rest.length + 1) = tail := by
  intro n
  induction n with
  | zero =>
    intro rest mem p q fuel hn hqp hd hz hf
    have : rest = [] := List.length_eq_zero_iff.1 (by omega)
    subst this
    simp only [List.nil_append] at hd
    cases fuel with
    | zero => simp at hf
    | succ f =>
      have hp := lt_of_drop hd
      refine ⟨mem.set q 0, ?_, ?_, by simp, ?_⟩
      · simp [canonLoop, getElem?_of_drop hd, wr_ok (show q < mem.length by omega)]
      · simp [Spec.crlf, take_set_succ (show q < mem.length by omega)]
      · rw [List.length_nil, Nat.add_zero, drop_set_lt (by omega), drop_succ hd]
  | succ n ih =>
    intro rest mem p q fuel hn hqp hd hz hf
    cases rest with
    | nil => exact ih [] mem p q fuel (by simp) hqp hd hz hf
    | cons c rest =>
      simp only [List.length_cons] at hn hf
      simp only [List.cons_append] at hd
      have hp := lt_of_drop hd
      have hq : q < mem.length := by omega
      have hc0 : c ≠ 0 := hz c (by simp)
      cases fuel with
      | zero => omega
      | succ f =>
        have step : ∀ (x p' : Nat) (rest' : List Nat), p < p' → rest'.length ≤ n → rest'.length < f →
            (mem.set q x).drop p' = rest' ++ 0 :: tail → (∀ c ∈ rest', c ≠ 0) →
            ∃ mem', canonLoop f (mem.set q x) p' (q + 1) = .ok mem' ∧
              mem'.take (q + (x :: Spec.crlf rest').length + 1) = mem.take q ++ x :: Spec.crlf rest' ++ [0] ∧
              mem'.length = mem.length ∧ mem'.drop (p' + rest'.length + 1) = tail := by
          intro x p' rest' hpp hl hl' hd' hz'
          obtain ⟨m, a, b, d, e⟩ := ih rest' (mem.set q x) p' (q + 1) f hl (by omega) hd' hz' hl'
          refine ⟨m, a, ?_, by simpa using d, e⟩
          have e1 : q + (x :: Spec.crlf rest').length + 1 = q + 1 + (Spec.crlf rest').length + 1 := by
            simp; omega
          rw [e1, b, take_set_succ hq]; simp
        by_cases h13 : c = 13
        · subst h13
          have hd1 : (mem.set q 10).drop (p + 1) = rest ++ 0 :: tail := by
            rw [drop_set_lt (by omega), drop_succ hd]
          cases rest with
          | nil =>
            simp only [List.nil_append] at hd1
            obtain ⟨m, a, b, d, e⟩ := step 10 (p + 1) [] (by omega) (by simp) (by simp at hf ⊢; omega) hd1 (by simp)
            refine ⟨m, ?_, ?_, d, ?_⟩
            · simp only [canonLoop, getElem?_of_drop hd, wr_ok hq, getElem?_of_drop hd1]
              simpa using a
            · simpa [Spec.crlf] using b
            · simpa using e
          | cons c2 rest =>
            simp only [List.cons_append] at hd1
            have hg := getElem?_of_drop hd1
            by_cases h10 : c2 = 10
            · subst h10
              obtain ⟨m, a, b, d, e⟩ := step 10 (p + 2) rest (by omega) (by simp at hn; omega)
                (by simp at hf; omega) (drop_succ hd1) (fun c hc => hz c (by simp [hc]))
              refine ⟨m, ?_, ?_, d, ?_⟩
              · simp only [canonLoop, getElem?_of_drop hd, wr_ok hq, hg]
                simpa using a
              · simpa [Spec.crlf] using b
              · have : p + (13 :: 10 :: rest).length + 1 = p + 2 + rest.length + 1 := by simp; omega
                rw [this]; exact e
            · obtain ⟨m, a, b, d, e⟩ := step 10 (p + 1) (c2 :: rest) (by omega) (by simpa using hn)
                (by simpa using hf) hd1 (fun c hc => hz c (by simp at hc ⊢; right; exact hc))
              have hcr : Spec.crlf (13 :: c2 :: rest) = 10 :: Spec.crlf (c2 :: rest) := by
                rw [Spec.crlf.eq_def]; split
                · simp at *
                · rename_i heq; simp at heq; exact absurd heq.1 h10
                · rename_i heq; simp at heq; rw [← heq]
                · rename_i hne heq; simp at heq; exact absurd heq.1.symm (by rintro rfl; simp_all)
              refine ⟨m, ?_, ?_, d, ?_⟩
              · simp only [canonLoop, getElem?_of_drop hd, wr_ok hq, hg]
                simpa [h10] using a
              · rw [hcr]; exact b
              · have : p + (13 :: c2 :: rest).length + 1 = p + 1 + (c2 :: rest).length + 1 := by simp; omega
                rw [this]; exact e
        · have hd1 : (mem.set q c).drop (p + 1) = rest ++ 0 :: tail := by
            rw [drop_set_lt (by omega), drop_succ hd]
          obtain ⟨m, a, b, d, e⟩ := step c (p + 1) rest (by omega) (by omega) (by omega) hd1
            (fun c hc => hz c (by simp [hc]))
          have hcr : Spec.crlf (c :: rest) = c :: Spec.crlf rest := by
            rw [Spec.crlf.eq_def]; split
            · simp at *
            · rename_i heq; simp at heq; exact absurd heq.1 h13
            · rename_i heq; simp at heq; exact absurd heq.1 h13
            · rename_i heq; simp at heq; rw [heq.1, heq.2]
          refine ⟨m, ?_, ?_, d, ?_⟩
          · simp only [canonLoop, getElem?_of_drop hd, wr_ok hq]
            simpa [h13, hc0] using a
          · rw [hcr]; exact b
          · have : p + (c :: rest).length + 1 = p + 1 + rest.length + 1 := by simp; omega
            rw [this]; exact e

theorem strchr_spec (c : Nat) (tail : List Nat) : ∀ (t : List Nat) (i : Nat), (∀ b ∈ t, b ≠ 0) →
    (c ≠ 0) →
    (strchr c (t ++ 0 :: tail) i = .ok none ∧ c ∉ t) ∨
    (∃ a b, t = a ++ c :: b ∧ c ∉ a ∧ strchr c (t ++ 0 :: tail) i = .ok (some (i + a.length)))
  | [], i, _, hc => by
    left; simp [strchr, Ne.symm hc]
  | x :: t, i, hz, hc => by
    have hx := hz x (by simp)
    by_cases h : x = c
    · right; exact ⟨[], t, by simp [h], by simp, by simp [strchr, h]⟩
    · rcases strchr_spec c tail t (i + 1) (fun b hb => hz b (by simp [hb])) hc with ⟨h1, h2⟩ | ⟨a, b, h1, h2, h3⟩
      · left; refine ⟨by simp [strchr, h, hx, h1], by simp [h2, Ne.symm h]⟩
      · right; refine ⟨x :: a, b, by simp [h1], by simp [h2, Ne.symm h], ?_⟩
        simp only [List.cons_append, strchr, h, hx, if_false, h3, List.length_cons]
        congr 2; omega

theorem crlf_append : ∀ (a b : List Nat), 13 ∉ a → Spec.crlf (a ++ b) = a ++ Spec.crlf b
  | [], b, _ => rfl
  | x :: a, b, h => by
    have hx : x ≠ 13 := by intro e; subst e; simp at h
    have ih := crlf_append a b (by intro e; exact h (by simp [e]))
    rw [List.cons_append, Spec.crlf.eq_def]; split
    · simp at *
    · rename_i heq; simp at heq; exact absurd heq.1 hx
    · rename_i heq; simp at heq; exact absurd heq.1 hx
    · rename_i heq; simp at heq; rw [← heq.1, ← heq.2, ih]; rfl

theorem cstr_of_take {mem t : List Nat} {k : Nat} (h : mem.take k = t ++ [0]) (hz : ∀ c ∈ t, c ≠ 0) :
    cstr mem = t := by
  have e : mem = (t ++ [0]) ++ mem.drop k := by rw [← h, List.take_append_drop]
  rw [e, cstr, List.append_assoc, List.takeWhile_append_of_pos (by simpa using hz)]
  simp

theorem cstr_append_zero (t tail : List Nat) (hz : ∀ c ∈ t, c ≠ 0) : cstr (t ++ 0 :: tail) = t := by
  rw [cstr, List.takeWhile_append_of_pos (by simpa using hz)]
  simp

theorem crlf_mem {t : List Nat} {c : Nat} (h : c ∈ Spec.crlf t) : c = 10 ∨ (c ∈ t ∧ c ≠ 13) := by
  fun_induction Spec.crlf t with
  | case1 => simp at h
  | case2 r ih =>
    simp only [List.mem_cons] at h
    rcases h with h | h
    · exact Or.inl h
    · rcases ih h with h | ⟨h1, h2⟩
      · exact Or.inl h
      · right; exact ⟨by simp [h1], h2⟩
  | case3 r _ ih =>
    simp only [List.mem_cons] at h
    rcases h with h | h
    · exact Or.inl h
    · rcases ih h with h | ⟨h1, h2⟩
      · exact Or.inl h
      · right; exact ⟨by simp [h1], h2⟩
  | case4 c' r h1 h2 ih =>
    simp only [List.mem_cons] at h
    rcases h with h | h
    · right; refine ⟨by simp [h], ?_⟩
      intro e; subst e; exact h2 h.symm
    · rcases ih h with h | ⟨h1, h2⟩
      · exact Or.inl h
      · right; exact ⟨by simp [h1], h2⟩

/-- The functional equivalent of the splice loop; `n` pending newlines. -/
def splice : Nat → List Nat → List Nat
  | _, [] => []
  | n, 92 :: 10 :: r => splice (n + 1) r
  | n, 10 :: r => List.replicate n 10 ++ 10 :: splice 0 r
  | n, c :: r => c :: splice n r


theorem splice_pair (n : Nat) (r : List Nat) : splice n (92 :: 10 :: r) = splice (n + 1) r := rfl

theorem splice_nl (n : Nat) (r : List Nat) :
    splice n (10 :: r) = List.replicate n 10 ++ 10 :: splice 0 r := rfl

theorem splice_other (n c : Nat) (r : List Nat) (h10 : c ≠ 10)
    (hp : ∀ r', ¬ (c = 92 ∧ r = 10 :: r')) : splice n (c :: r) = c :: splice n r := by
  rw [splice.eq_def]; split
  · simp at *
  · rename_i heq; simp at heq; exact absurd heq (hp _)
  · rename_i heq; simp at heq; exact absurd heq.1 h10
  · rename_i heq; simp at heq; rw [heq.1, heq.2]

theorem putNewlines_spec : ∀ (n : Nat) (mem : List Nat) (q : Nat), q + n ≤ mem.length →
    ∃ mem', putNewlines n mem q = .ok (mem', q + n) ∧ mem'.length = mem.length ∧
      mem'.take (q + n) = mem.take q ++ List.replicate n 10 ∧
      ∀ p, q + n ≤ p → mem'.drop p = mem.drop p := by
  intro n
  induction n with
  | zero => intro mem q h; exact ⟨mem, rfl, rfl, by simp, fun _ _ => rfl⟩
  | succ n ih =>
    intro mem q h
    have hq : q < mem.length := by omega
    obtain ⟨m, a, b, c, d⟩ := ih (mem.set q 10) (q + 1) (by simp; omega)
    have e : q + 1 + n = q + (n + 1) := by omega
    rw [e] at a c d
    refine ⟨m, by simp only [putNewlines, wr_ok hq]; exact a, by simpa using b, ?_, ?_⟩
    · rw [c, take_set_succ hq, List.replicate_succ]; simp
    · intro p hp; rw [d p hp, drop_set_lt (by omega)]

theorem spliceLoop_spec (tail : List Nat) : ∀ (k : Nat) (rest mem : List Nat) (p q n fuel : Nat),
    rest.length ≤ k → q + 2 * n ≤ p → mem.drop p = rest ++ 0 :: tail → (∀ c ∈ rest, c ≠ 0) →
    rest.length < fuel →
    ∃ mem', spliceLoop fuel mem p q n = .ok mem' ∧
      mem'.take (q + (splice n rest).length + 1) = mem.take q ++ splice n rest ++ [0] ∧
      mem'.length = mem.length ∧ mem'.drop (p + rest.length + 1) = tail := by
  intro k
  induction k with
  | zero =>
    intro rest mem p q n fuel hn hqp hd hz hf
    have : rest = [] := List.length_eq_zero_iff.1 (by omega)
    subst this
    simp only [List.nil_append] at hd
    cases fuel with
    | zero => simp at hf
    | succ f =>
      have hp := lt_of_drop hd
      refine ⟨mem.set q 0, ?_, ?_, by simp, ?_⟩
      · simp [spliceLoop, getElem?_of_drop hd, wr_ok (show q < mem.length by omega)]
      · simp [splice, take_set_succ (show q < mem.length by omega)]
      · rw [List.length_nil, Nat.add_zero, drop_set_lt (by omega), drop_succ hd]
  | succ k ih =>
    intro rest mem p q n fuel hn hqp hd hz hf
    cases rest with
    | nil => exact ih [] mem p q n fuel (by simp) hqp hd hz hf
    | cons c rest =>
      simp only [List.length_cons] at hn hf
      simp only [List.cons_append] at hd
      have hp := lt_of_drop hd
      have hq : q < mem.length := by omega
      have hc0 : c ≠ 0 := hz c (by simp)
      cases fuel with
      | zero => omega
      | succ f =>
        have hd1 := drop_succ hd
        obtain ⟨d, hdc, hd2⟩ : ∃ d, (if c = 92 then mem[p + 1]? else some 0) = some d ∧
            ((c = 92 ∧ d = 10) ↔ ∃ r', c = 92 ∧ rest = 10 :: r') := by
          by_cases h92 : c = 92
          · cases rest with
            | nil =>
              simp only [List.nil_append] at hd1
              exact ⟨0, by simp [h92, getElem?_of_drop hd1], by simp⟩
            | cons c2 r =>
              simp only [List.cons_append] at hd1
              exact ⟨c2, by simp [h92, getElem?_of_drop hd1], by simp⟩
          · exact ⟨0, by simp [h92], by simp [h92]⟩
        by_cases hpair : c = 92 ∧ d = 10
        · obtain ⟨r', h92, hr⟩ := hd2.1 hpair
          subst hr; subst h92
          simp only [List.cons_append] at hd1
          obtain ⟨m, a, b, e, g⟩ := ih r' mem (p + 2) q (n + 1) f (by simp at hn; omega) (by omega)
            (drop_succ hd1) (fun c hc => hz c (by simp [hc])) (by simp at hf; omega)
          refine ⟨m, ?_, by rw [splice_pair]; exact b, e, ?_⟩
          · simp [spliceLoop, getElem?_of_drop hd, getElem?_of_drop hd1, a]
          · have : p + (92 :: 10 :: r').length + 1 = p + 2 + r'.length + 1 := by simp; omega
            rw [this]; exact g
        · by_cases h10 : c = 10
          · subst h10
            obtain ⟨m1, a1, b1, c1, d1⟩ := putNewlines_spec n mem q (by omega)
            have hm1p : m1[p]? = some 10 := by
              apply getElem?_of_drop (r := rest ++ 0 :: tail); rw [d1 p (by omega)]; exact hd
            have hq1 : q + n < m1.length := by omega
            obtain ⟨m, a, b, e, g⟩ := ih rest (m1.set (q + n) 10) (p + 1) (q + n + 1) 0 f (by omega) (by omega)
              (by rw [drop_set_lt (by omega), d1 _ (by omega)]; exact hd1)
              (fun c hc => hz c (by simp [hc])) (by omega)
            refine ⟨m, ?_, ?_, by simp at e; omega, ?_⟩
            · simp only [spliceLoop, getElem?_of_drop hd, hdc, hpair]
              simp [a1, hm1p, wr_ok hq1, a]
            · rw [splice_nl]
              have : q + (List.replicate n 10 ++ 10 :: splice 0 rest).length + 1 =
                q + n + 1 + (splice 0 rest).length + 1 := by simp; omega
              rw [this, b, take_set_succ hq1, c1]; simp
            · have : p + (10 :: rest).length + 1 = p + 1 + rest.length + 1 := by simp; omega
              rw [this]; exact g
          · obtain ⟨m, a, b, e, g⟩ := ih rest (mem.set q c) (p + 1) (q + 1) n f (by omega) (by omega)
              (by rw [drop_set_lt (by omega)]; exact hd1)
              (fun c hc => hz c (by simp [hc])) (by omega)
            have hsp : splice n (c :: rest) = c :: splice n rest :=
              splice_other n c rest h10 (fun r' h => hpair (hd2.2 ⟨r', h⟩))
            refine ⟨m, ?_, ?_, by simpa using e, ?_⟩
            · simp only [spliceLoop, getElem?_of_drop hd, hdc, hpair]
              simp [hc0, h10, putNewlines, getElem?_of_drop hd, wr_ok hq, a]
            · rw [hsp]
              have : q + (c :: splice n rest).length + 1 = q + 1 + (splice n rest).length + 1 := by simp; omega
              rw [this, b, take_set_succ hq]; simp
            · have : p + (c :: rest).length + 1 = p + 1 + rest.length + 1 := by simp; omega
              rw [this]; exact g

theorem splice_append_no92 : ∀ (a b : List Nat), 92 ∉ a → splice 0 (a ++ b) = a ++ splice 0 b
  | [], b, _ => rfl
  | x :: a, b, h => by
    have hx : x ≠ 92 := by intro e; subst e; simp at h
    have ih := splice_append_no92 a b (by intro e; exact h (by simp [e]))
    by_cases h10 : x = 10
    · subst h10; rw [List.cons_append, splice_nl, ih]; rfl
    · rw [List.cons_append, splice_other 0 x _ h10 (fun r' h => hx h.1), ih]; rfl

theorem splice_mem {c : Nat} {t : List Nat} : ∀ {n : Nat}, c ∈ splice n t → c = 10 ∨ c ∈ t := by
  intro n h
  fun_induction splice n t with
  | case1 => simp at h
  | case2 n r ih => rcases ih h with h | h <;> simp [h]
  | case3 n r ih =>
    simp only [List.mem_append, List.mem_replicate, List.mem_cons] at h
    rcases h with ⟨_, h⟩ | h | h
    · exact Or.inl h
    · exact Or.inl h
    · rcases ih h with h | h <;> simp [h]
  | case4 n c' r h1 h2 ih =>
    simp only [List.mem_cons] at h
    rcases h with h | h
    · simp [h]
    · rcases ih h with h | h <;> simp [h]

end Slimcc.Source
