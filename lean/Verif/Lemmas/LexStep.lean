import Verif.Lemmas.LexStr
set_option autoImplicit false
namespace Slimcc.Lex
open Slimcc Slimcc.Source Slimcc.Unicode Slimcc.Spec Slimcc.Props

theorem skipRun_sound (c : Nat) (hc : c ≠ 0) (tail : List Nat) : ∀ (s : List Nat),
    ∃ n s', s = List.replicate n c ++ s' ∧ skipRun c (s ++ 0 :: tail) = .ok (s' ++ 0 :: tail)
  | [] => ⟨0, [], rfl, by simp [skipRun, Ne.symm hc]⟩
  | b :: s => by
    by_cases hb : b = c
    · obtain ⟨n, s', h1, h2⟩ := skipRun_sound c hc tail s
      exact ⟨n + 1, s', by rw [h1, hb]; rfl, by simp [skipRun, hb, h2]⟩
    · exact ⟨0, b :: s, rfl, by simp [skipRun, hb]⟩

theorem skipLine_sound (tail : List Nat) : ∀ (s : List Nat), 10 ∈ s →
    ∃ x s', s = x ++ 10 :: s' ∧ 10 ∉ x ∧ skipLine (s ++ 0 :: tail) = .ok (10 :: s' ++ 0 :: tail)
  | [], h => by simp at h
  | b :: s, h => by
    by_cases hb : b = 10
    · exact ⟨[], s, by rw [hb]; rfl, by simp, by simp [skipLine, hb]⟩
    · have : 10 ∈ s := by simp at h; rcases h with h | h; exact absurd h.symm hb; exact h
      obtain ⟨x, s', h1, h2, h3⟩ := skipLine_sound tail s this
      refine ⟨b :: x, s', by rw [h1]; rfl, ?_, ?_⟩
      · simp [h2]; exact fun e => hb e.symm
      · rw [List.cons_append, skipLine, if_neg hb, h3]

theorem infix_cons_iff (b : Nat) (x : List Nat) :
    [42, 47] <:+: b :: x ↔ ([42, 47] <+: b :: x ∨ [42, 47] <:+: x) := List.infix_cons_iff

theorem skipBlock_sound (tail : List Nat) : ∀ (s : List Nat), (∀ b ∈ s, b ≠ 0) →
    skipBlock (s ++ 0 :: tail) = .error ∨
    ∃ x s', s = x ++ [42, 47] ++ s' ∧ ¬ [42, 47] <:+: x ∧ skipBlock (s ++ 0 :: tail) = .ok (s' ++ 0 :: tail)
  | [], _ => by left; simp [skipBlock]
  | b :: s, hz => by
    have hb0 := hz b (by simp)
    have ih := skipBlock_sound tail s (fun b hb => hz b (by simp [hb]))
    have base : ¬ (b = 42 ∧ s.headD 0 = 47) → skipBlock (b :: s ++ 0 :: tail) = skipBlock (s ++ 0 :: tail) := by
      intro hn
      rw [List.cons_append, skipBlock, if_neg hb0]
      by_cases hb : b = 42
      · rw [if_pos hb, rd_text]
        simp only
        rw [if_neg (fun h => hn ⟨hb, h⟩)]
      · rw [if_neg hb]
    by_cases h : b = 42 ∧ s.headD 0 = 47
    · right
      obtain ⟨rfl, h⟩ := h
      cases s with
      | nil => simp at h
      | cons d s =>
        simp at h; subst h
        refine ⟨[], s, rfl, by simp, ?_⟩
        simp [skipBlock, rd]
    · rw [base h]
      rcases ih with ih | ⟨x, s', h1, h2, h3⟩
      · exact Or.inl ih
      · right
        refine ⟨b :: x, s', by rw [h1]; rfl, ?_, h3⟩
        rw [infix_cons_iff]
        rintro (hp | hp)
        · apply h
          rw [List.cons_prefix_cons] at hp
          refine ⟨hp.1.symm, ?_⟩
          cases x with
          | nil => simp at hp
          | cons y x =>
            rw [List.cons_prefix_cons] at hp
            rw [h1, ← hp.2.1]; rfl
        · exact h2 hp

theorem skipBlock_complete (r : List Nat) : ∀ (x : List Nat), ¬ [42, 47] <:+: x → (∀ b ∈ x, b ≠ 0) →
    skipBlock (x ++ 42 :: 47 :: r) = .ok r
  | [], _, _ => by simp [skipBlock, rd]
  | b :: x, h, hz => by
    have hb0 := hz b (by simp)
    rw [infix_cons_iff] at h
    have ih := skipBlock_complete r x (fun e => h (Or.inr e)) (fun b hb => hz b (by simp [hb]))
    rw [List.cons_append, skipBlock, if_neg hb0]
    by_cases hb : b = 42
    · subst hb
      have h1 : ∃ d q, x ++ 42 :: 47 :: r = d :: q ∧ d ≠ 47 := by
        cases x with
        | nil => exact ⟨42, _, rfl, by decide⟩
        | cons d x =>
          refine ⟨d, _, rfl, ?_⟩
          rintro rfl; apply h; left; exact ⟨x, rfl⟩
      obtain ⟨d, q, h1, h2⟩ := h1
      rw [if_pos rfl, h1] ; simp only [rd, List.getElem?_cons_zero]
      rw [if_neg h2, ← h1]; exact ih
    · rw [if_neg hb]; exact ih

theorem skipLine_complete (r : List Nat) : ∀ (x : List Nat), 10 ∉ x → skipLine (x ++ 10 :: r) = .ok (10 :: r)
  | [], _ => by simp [skipLine]
  | b :: x, h => by
    have hb : b ≠ 10 := fun e => h (by simp [e])
    rw [List.cons_append, skipLine, if_neg hb]
    exact skipLine_complete r x (fun e => h (by simp [e]))

theorem IsLongest.unique {ps : List (List Nat)} {t : List Nat} {n m : Nat} (h1 : IsLongest ps t n)
    (h2 : IsLongest ps t m) : n = m := by
  have le : ∀ {a b : Nat}, IsLongest ps t a → IsLongest ps t b → a ≤ b := by
    intro a b ha hb
    rcases ha.1 with h | ⟨q, hq, hp, hl⟩
    · omega
    · have := hb.2 q hq hp; omega
  exact Nat.le_antisymm (le h1 h2) (le h2 h1)

/-- Characters at which no punctuator starts. -/
theorem readPunct_zero (c d : Nat) (r : List Nat)
    (h : IsIdAscii c ∨ 128 ≤ c ∨ c = 34 ∨ c = 39) : readPunct false (c :: d :: r) = .ok 0 := by
  unfold IsIdAscii IsLetter IsDigit at h
  simp only [readPunct, rd, List.getElem?_cons_zero, List.getElem?_cons_succ]
  rw [if_neg (by omega), if_neg (by omega), if_neg (by omega), if_neg (by omega), if_neg (by omega),
    if_neg (by omega)]
  by_cases h36 : c = 36
  · rw [if_pos h36]; rfl
  · rw [if_neg h36, if_neg (by omega)]

theorem prefix1 (a c : Nat) (q : List Nat) : [a] <+: c :: q ↔ c = a := by
  rw [List.cons_prefix_cons]; simp [eq_comm]

theorem prefix2 (a b c : Nat) (q : List Nat) (hb : b ≠ 0) : [a, b] <+: c :: q ↔ c = a ∧ q.headD 0 = b := by
  rw [List.cons_prefix_cons]
  cases q with
  | nil => simp [Ne.symm hb]
  | cons d q => rw [prefix1]; simp [eq_comm]

theorem prefix3 (a b e c : Nat) (q : List Nat) (hb : b ≠ 0) (he : e ≠ 0) :
    [a, b, e] <+: c :: q ↔ c = a ∧ q.headD 0 = b ∧ (q.drop 1).headD 0 = e := by
  rw [List.cons_prefix_cons]
  cases q with
  | nil => simp [Ne.symm hb]
  | cons d q => rw [prefix2 _ _ _ _ he]; simp [eq_comm]

theorem startsLiteral_iff (c : Nat) (q : List Nat) : StartsLiteral (c :: q) ↔
    (c = 34 ∨ (c = 117 ∧ q.headD 0 = 56 ∧ (q.drop 1).headD 0 = 34) ∨ (c = 117 ∧ q.headD 0 = 34) ∨
      (c = 76 ∧ q.headD 0 = 34) ∨ (c = 85 ∧ q.headD 0 = 34)) ∨
    (c = 39 ∨ (c = 117 ∧ q.headD 0 = 39) ∨ (c = 76 ∧ q.headD 0 = 39) ∨ (c = 85 ∧ q.headD 0 = 39)) := by
  have e1 : strPrefixes = [([], .narrow), ([117, 56], .narrow), ([117], .utf16), ([76], .wide), ([85], .utf32)] := by decide
  have e2 : chrPrefixes = [([], .int), ([117], .ushort), ([76], .int), ([85], .uint)] := by decide
  unfold StartsLiteral
  rw [e1, e2]
  simp only [List.mem_cons, List.not_mem_nil, or_false, exists_eq_or_imp, exists_eq_left, List.nil_append,
    List.cons_append]
  rw [prefix1, prefix1, prefix3 _ _ _ _ _ (by decide) (by decide), prefix2 _ _ _ _ (by decide), prefix2 _ _ _ _ (by decide),
    prefix2 _ _ _ _ (by decide), prefix2 _ _ _ _ (by decide), prefix2 _ _ _ _ (by decide), prefix2 _ _ _ _ (by decide)]

theorem s8_eq (v : Nat) : s8 v = signed 8 v := by
  unfold s8 signed
  split <;> rfl

theorem s32_eq (v : Nat) (h : v < 2 ^ 32) : s32 v = signed 32 v := by
  unfold s32 signed
  rw [Nat.mod_eq_of_lt h]

theorem loose_lt {c : Nat} {bs : List Nat} (h : LooseUtf8 c bs) : c < 2 ^ 32 := by
  rcases h with ⟨b, rfl, h, rfl⟩ | ⟨a, b, rfl, h1, h2, h3, rfl⟩ | ⟨a, b, d, rfl, h1, h2, h3, h4, rfl⟩ | ⟨a, b, d, e, rfl, h1, h2, h3, h4, rfl⟩ <;> omega

theorem chrBody_lt {v : Nat} {b r : List Nat} (h : ChrBody v b r) (hb : ∀ x ∈ b, x < 256) : v < 2 ^ 32 := by
  cases h with
  | esc x _ hesc => exact esc_bound hesc (fun y hy => hb y (by simp [hy]))
  | chr _ _ hl _ => exact loose_lt hl

/-- What one round of the main loop can do at a text `s`. -/
inductive Round (s tail : List Nat) : Outcome Step → Prop
  | error : Round s tail .error
  | newline (s' : List Nat) : s = 10 :: s' → Round s tail (.ok (.newline (s' ++ 0 :: tail)))
  | white (c n : Nat) (s' : List Nat) : c = 32 ∨ c = 9 ∨ c = 11 ∨ c = 12 →
      s = List.replicate (n + 1) c ++ s' → Round s tail (.ok (.blank (s' ++ 0 :: tail)))
  | line (x s' : List Nat) : 10 ∉ x → s = 47 :: 47 :: x ++ 10 :: s' →
      Round s tail (.ok (.blank (10 :: s' ++ 0 :: tail)))
  | block (x s' : List Nat) : ¬ [42, 47] <:+: x → s = 47 :: 42 :: x ++ [42, 47] ++ s' →
      Round s tail (.ok (.blank (s' ++ 0 :: tail)))
  | tok (k : Kind) (v : Val) (x s' : List Nat) : TokenText k v x s' → s = x ++ s' →
      Round s tail (.ok (.tok k v (s' ++ 0 :: tail)))

theorem strStep_sound (e : StrEnc) (pre : List Nat) (c : Nat) (q0 s0 s tail : List Nat) (hs0 : s0 = pre ++ 34 :: s)
    (hpre : (pre, e) ∈ strPrefixes) (hnl : EndsNL s) (h256 : ∀ b ∈ s, b < 256) :
    Round s0 tail (strStep e pre.length (s ++ 0 :: tail)) := by
  unfold strStep
  rcases readString_sound e pre.length s tail hnl h256 with h | ⟨t, us, s', h1, h2, h3⟩
  · rw [h]; exact .error
  · rw [h3]
    exact .tok .str (.str e us) (pre ++ 34 :: t ++ [34]) s' (.str pre e t us s' hpre h2) (by rw [hs0, h1]; simp)

theorem chrStep_sound (f : Nat → Int) (ty : CharTy) (pre : List Nat) (s0 s tail : List Nat) (hs0 : s0 = pre ++ 39 :: s)
    (hpre : (pre, ty) ∈ chrPrefixes) (hf : ∀ v, v < 2 ^ 32 → f v = chrValue pre v)
    (hnl : EndsNL s) (h256 : ∀ b ∈ s, b < 256) (hz : ∀ b ∈ s, b ≠ 0) :
    Round s0 tail (chrStep f ty (s ++ 0 :: tail)) := by
  unfold chrStep
  rcases readCharLit_sound s tail hnl hz with h | ⟨v, b, j, s', h1, h2, h3, h4⟩
  · rw [h]; exact .error
  · rw [h4]
    simp only
    rw [hf v (chrBody_lt h2 (fun x hx => h256 x (by rw [h1]; simp [hx])))]
    exact .tok _ _ (pre ++ 39 :: b ++ j ++ [39]) s' (.chr pre ty v b j s' hpre h2 h3) (by rw [hs0, h1]; simp)

theorem drop1_text (s tail : List Nat) (h : s.headD 0 ≠ 0) : ∃ d s', s = d :: s' ∧ (s ++ 0 :: tail).drop 1 = s' ++ 0 :: tail ∧ s.headD 0 = d := by
  cases s with
  | nil => simp at h
  | cons d s => exact ⟨d, s, rfl, rfl, rfl⟩

theorem stepWord_sound (c : Nat) (s tail : List Nat) (hnl : EndsNL (c :: s)) (h256 : ∀ b ∈ c :: s, b < 256)
    (hz : ∀ b ∈ c :: s, b ≠ 0) (hdig : ¬ IsDigit c) (e : Nat)
    (he : c = 117 ∧ s.headD 0 = 56 → e = (s.drop 1).headD 0) :
    Round (c :: s) tail (stepWord false c (s.headD 0) e (s ++ 0 :: tail)) := by
  have hnl1 : EndsNL s := EndsNL.suffix (x := [c]) hnl
  have h1 : ∀ b ∈ s, b < 256 := fun b hb => h256 b (by simp [hb])
  have hz1 : ∀ b ∈ s, b ≠ 0 := fun b hb => hz b (by simp [hb])
  have m1 : ([], StrEnc.narrow) ∈ strPrefixes := by decide
  have m2 : ([117, 56], StrEnc.narrow) ∈ strPrefixes := by decide
  have m3 : ([117], StrEnc.utf16) ∈ strPrefixes := by decide
  have m4 : ([76], StrEnc.wide) ∈ strPrefixes := by decide
  have m5 : ([85], StrEnc.utf32) ∈ strPrefixes := by decide
  have k1 : ([], CharTy.int) ∈ chrPrefixes := by decide
  have k2 : ([117], CharTy.ushort) ∈ chrPrefixes := by decide
  have k3 : ([76], CharTy.int) ∈ chrPrefixes := by decide
  have k4 : ([85], CharTy.uint) ∈ chrPrefixes := by decide
  have v1 : ∀ v, v < 2 ^ 32 → s8 v = chrValue [] v := fun v _ => by rw [s8_eq]; rfl
  have v2 : ∀ v, v < 2 ^ 32 → ((v % 2 ^ 16 : Nat) : Int) = chrValue [117] v := fun v _ => rfl
  have v3 : ∀ v, v < 2 ^ 32 → s32 v = chrValue [76] v := fun v h => by rw [s32_eq v h]; rfl
  have v4 : ∀ v, v < 2 ^ 32 → s32 v = chrValue [85] v := fun v h => by rw [s32_eq v h]; rfl
  -- second byte is in the text
  have sub : ∀ x, x ≠ 0 → s.headD 0 = x → ∃ s2, s = x :: s2 ∧ (s ++ 0 :: tail).drop 1 = s2 ++ 0 :: tail ∧
      EndsNL s2 ∧ (∀ b ∈ s2, b < 256) ∧ (∀ b ∈ s2, b ≠ 0) := by
    intro x hx hd
    obtain ⟨d, s2, rfl, h2, h3⟩ := drop1_text s tail (by rw [hd]; exact hx)
    rw [h3] at hd; subst hd
    exact ⟨s2, rfl, h2, EndsNL.suffix (x := [d]) hnl1, fun b hb => h1 b (by simp [hb]), fun b hb => hz1 b (by simp [hb])⟩
  unfold stepWord
  by_cases c1 : c = 34
  · rw [if_pos c1]; exact strStep_sound .narrow [] c s _ s tail (by rw [c1]; rfl) m1 hnl1 h1
  rw [if_neg c1]
  by_cases c2 : c = 117 ∧ s.headD 0 = 56 ∧ e = 34
  · rw [if_pos c2]
    obtain ⟨a, b, he2⟩ := c2
    have he3 := he ⟨a, b⟩
    obtain ⟨s2, rfl, hd, hnl2, h2, hz2⟩ := sub 56 (by decide) b
    rw [he2] at he3
    simp only [List.drop_succ_cons, List.drop_zero] at he3
    obtain ⟨d, s3, rfl, h5, h6⟩ := drop1_text s2 tail (by rw [← he3]; decide)
    rw [h6] at he3; subst he3
    have : (56 :: 34 :: s3 ++ 0 :: tail).drop 2 = s3 ++ 0 :: tail := rfl
    rw [this]
    exact strStep_sound .narrow [117, 56] c s3 _ s3 tail (by rw [a]; rfl) m2 (EndsNL.suffix (x := [34]) hnl2)
      (fun b hb => h2 b (by simp [hb]))
  rw [if_neg c2]
  by_cases c3 : c = 117 ∧ s.headD 0 = 34
  · rw [if_pos c3]
    obtain ⟨s2, rfl, hd, hnl2, h2, hz2⟩ := sub 34 (by decide) c3.2
    rw [hd]; exact strStep_sound .utf16 [117] c s2 _ s2 tail (by rw [c3.1]; rfl) m3 hnl2 h2
  rw [if_neg c3]
  by_cases c4 : c = 76 ∧ s.headD 0 = 34
  · rw [if_pos c4]
    obtain ⟨s2, rfl, hd, hnl2, h2, hz2⟩ := sub 34 (by decide) c4.2
    rw [hd]; exact strStep_sound .wide [76] c s2 _ s2 tail (by rw [c4.1]; rfl) m4 hnl2 h2
  rw [if_neg c4]
  by_cases c5 : c = 85 ∧ s.headD 0 = 34
  · rw [if_pos c5]
    obtain ⟨s2, rfl, hd, hnl2, h2, hz2⟩ := sub 34 (by decide) c5.2
    rw [hd]; exact strStep_sound .utf32 [85] c s2 _ s2 tail (by rw [c5.1]; rfl) m5 hnl2 h2
  rw [if_neg c5]
  by_cases c6 : c = 39
  · rw [if_pos c6]; exact chrStep_sound s8 .int [] _ s tail (by rw [c6]; rfl) k1 v1 hnl1 h1 hz1
  rw [if_neg c6]
  by_cases c7 : c = 117 ∧ s.headD 0 = 39
  · rw [if_pos c7]
    obtain ⟨s2, rfl, hd, hnl2, h2, hz2⟩ := sub 39 (by decide) c7.2
    rw [hd]; exact chrStep_sound _ .ushort [117] _ s2 tail (by rw [c7.1]; rfl) k2 v2 hnl2 h2 hz2
  rw [if_neg c7]
  by_cases c8 : c = 76 ∧ s.headD 0 = 39
  · rw [if_pos c8]
    obtain ⟨s2, rfl, hd, hnl2, h2, hz2⟩ := sub 39 (by decide) c8.2
    rw [hd]; exact chrStep_sound _ .int [76] _ s2 tail (by rw [c8.1]; rfl) k3 v3 hnl2 h2 hz2
  rw [if_neg c8]
  by_cases c9 : c = 85 ∧ s.headD 0 = 39
  · rw [if_pos c9]
    obtain ⟨s2, rfl, hd, hnl2, h2, hz2⟩ := sub 39 (by decide) c9.2
    rw [hd]; exact chrStep_sound _ .uint [85] _ s2 tail (by rw [c9.1]; rfl) k4 v4 hnl2 h2 hz2
  rw [if_neg c9]
  have hnlit : ¬ StartsLiteral (c :: s) := by
    rw [startsLiteral_iff]
    rintro ((h | ⟨h, h', h''⟩ | h | h | h) | (h | h | h | h))
    · exact c1 h
    · exact c2 ⟨h, h', by rw [he ⟨h, h'⟩, h'']⟩
    · exact c3 h
    · exact c4 h
    · exact c5 h
    · exact c6 h
    · exact c7 h
    · exact c8 h
    · exact c9 h
  rcases readIdent_sound tail ((s ++ 0 :: tail).length + 2) true (c :: s) (by simp; omega) with h | ⟨x, s', hx, h, hr⟩
  · rw [List.cons_append] at h; rw [h]; exact .error
  · rw [List.cons_append] at h; rw [h]
    simp only
    by_cases hx0 : x = []
    · subst hx0
      rw [if_neg (by rw [List.nil_append] at hx; rw [← hx]; simp)]
      exact .error
    · have hl : (s' ++ 0 :: tail).length < (s ++ 0 :: tail).length + 1 := by
        have h2 := congrArg List.length hx
        have h3 : 0 < x.length := List.length_pos_iff.2 hx0
        simp at h2 ⊢; omega
      rw [if_pos hl]
      refine .tok .ident .none x s' (.ident x s' hx0 hr ?_ (by rw [← hx]; exact hnlit)) hx
      cases x with
      | nil => exact absurd rfl hx0
      | cons y x =>
        rw [starts_cons]; simp at hx; rw [← hx.1]; exact hdig

theorem step_sound (s tail : List Nat) (hs : s ≠ []) (hnl : EndsNL s) (h256 : ∀ b ∈ s, b < 256)
    (hz : ∀ b ∈ s, b ≠ 0) : Round s tail (step false (s ++ 0 :: tail)) := by
  cases s with
  | nil => exact absurd rfl hs
  | cons c s =>
    have hz1 : ∀ b ∈ s, b ≠ 0 := fun b hb => hz b (by simp [hb])
    have hnl1 : EndsNL s := EndsNL.suffix (x := [c]) hnl
    rw [List.cons_append, step]
    by_cases h10 : c = 10
    · rw [if_pos h10]; exact .newline s (by rw [h10])
    rw [if_neg h10]
    by_cases hw : c = 32 ∨ c = 9 ∨ c = 11 ∨ c = 12
    · rw [if_pos hw]
      obtain ⟨n, s', h1, h2⟩ := skipRun_sound c (hz c (by simp)) tail s
      rw [h2]; exact .white c n s' hw (by rw [h1]; rfl)
    rw [if_neg hw, rd_text]
    simp only
    have dr : s.headD 0 ≠ 0 → ∃ d s', s = d :: s' ∧ (s ++ 0 :: tail).drop 1 = s' ++ 0 :: tail ∧ s.headD 0 = d :=
      drop1_text s tail
    by_cases hlc : c = 47 ∧ s.headD 0 = 47
    · rw [if_pos hlc]
      obtain ⟨d, s', rfl, h2, h3⟩ := dr (by rw [hlc.2]; decide)
      rw [h3] at hlc
      rw [h2]
      have hmem : 10 ∈ s' := by
        rcases hnl1 with h | ⟨u, hu⟩
        · cases h
        · have : (10 : Nat) ∈ d :: s' := by rw [hu]; simp
          simp at this; rcases this with h | h
          · omega
          · exact h
      obtain ⟨x, s'', h4, h5, h6⟩ := skipLine_sound tail s' hmem
      rw [h6]; exact .line x s'' h5 (by rw [hlc.1, hlc.2, h4]; rfl)
    rw [if_neg hlc]
    by_cases hbc : c = 47 ∧ s.headD 0 = 42
    · rw [if_pos hbc]
      obtain ⟨d, s', rfl, h2, h3⟩ := dr (by rw [hbc.2]; decide)
      rw [h3] at hbc
      rw [h2]
      rcases skipBlock_sound tail s' (fun b hb => hz1 b (by simp [hb])) with h | ⟨x, s'', h4, h5, h6⟩
      · rw [h]; exact .error
      · rw [h6]; exact .block x s'' h5 (by rw [hbc.1, hbc.2, h4]; rfl)
    rw [if_neg hbc]
    have hncomm : ¬ StartsComment (c :: s) := by
      unfold StartsComment
      rw [prefix2 _ _ _ _ (by decide), prefix2 _ _ _ _ (by decide)]
      rintro (h | h)
      · exact hlc h
      · exact hbc h
    by_cases hnum : isDigit (if c = 46 then s.headD 0 else c) = true
    · rw [if_pos hnum]
      by_cases h46 : c = 46
      · rw [if_pos h46] at hnum ⊢
        have hne : s.headD 0 ≠ 0 := by rw [isDigit_iff] at hnum; unfold IsDigit at hnum; omega
        obtain ⟨d, s', rfl, h2, h3⟩ := dr hne
        rw [h2, h3] at *
        rcases ppNumber_sound tail ((d :: s' ++ 0 :: tail).length + 1) s' (by simp; omega) with h | ⟨x, s'', h4, h5, h6⟩
        · rw [h]; exact .error
        · rw [h5]
          exact .tok _ _ ([46] ++ d :: x) s'' (.num [46] d x s'' (Or.inr rfl) ((isDigit_iff d).1 hnum) h6)
            (by rw [h46, h4]; rfl)
      · rw [if_neg h46] at hnum ⊢
        rcases ppNumber_sound tail ((s ++ 0 :: tail).length + 1) s (by simp; omega) with h | ⟨x, s'', h4, h5, h6⟩
        · rw [h]; exact .error
        · rw [h5]
          exact .tok _ _ ([] ++ c :: x) s'' (.num [] c x s'' (Or.inl rfl) ((isDigit_iff c).1 hnum) h6)
            (by rw [h4]; rfl)
    rw [if_neg hnum]
    obtain ⟨n, hn, hlong⟩ := C09_maximal_munch c s tail hz
    rw [List.cons_append] at hn
    rw [hn]
    cases n with
    | succ n =>
      simp only
      rcases hlong.1 with h | ⟨q, hq, hp, hl⟩
      · omega
      · obtain ⟨s', hs'⟩ := hp
        cases q with
        | nil => simp at hl
        | cons q0 q =>
          simp only [List.cons_append, List.cons.injEq] at hs'
          obtain ⟨rfl, hs'⟩ := hs'
          have hql : q.length = n := by simp at hl; omega
          have hdrop : (s ++ 0 :: tail).drop n = s' ++ 0 :: tail := by
            rw [← hs', ← hql, List.append_assoc, List.drop_left]
          rw [hdrop]
          refine .tok .punct .none (q0 :: q) s' (.punct _ _ (by simp) ?_ ?_ ?_) (by rw [← hs']; rfl)
          · rw [List.cons_append, hs', hl]; exact hlong
          · rw [List.cons_append, hs']; exact hncomm
          · intro r hr hsd
            rw [List.cons_append, hs'] at hr
            simp only [List.cons.injEq] at hr
            obtain ⟨h46, rfl⟩ := hr
            rw [if_pos h46, isDigit_iff] at hnum
            obtain ⟨b, r, rfl, hb⟩ := hsd
            exact hnum hb
    | zero =>
      simp only
      have hnd : ¬ IsDigit c := by
        intro h
        by_cases h46 : c = 46
        · unfold IsDigit at h; omega
        · rw [if_neg h46, isDigit_iff] at hnum; exact hnum h
      by_cases hu8 : c = 117 ∧ s.headD 0 = 56
      · rw [if_pos hu8]
        obtain ⟨d, s', rfl, h2, h3⟩ := dr (by rw [hu8.2]; decide)
        have : rd (d :: s' ++ 0 :: tail) 1 = .ok (((d :: s').drop 1).headD 0) := by
          cases s' <;> simp [rd]
        rw [this]
        exact stepWord_sound c _ tail hnl h256 hz hnd _ (fun _ => rfl)
      · rw [if_neg hu8]
        exact stepWord_sound c _ tail hnl h256 hz hnd _ (fun h => absurd h hu8)

end Slimcc.Lex
