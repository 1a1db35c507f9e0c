import Verif.Lemmas.Lex
set_option autoImplicit false
namespace Slimcc.Lex
open Slimcc Slimcc.Source Slimcc.Unicode Slimcc.Spec Slimcc.Props

theorem rd_text (s tail : List Nat) : rd (s ++ 0 :: tail) 0 = .ok (s.headD 0) := by
  cases s <;> simp [rd]

instance (d : Nat) : Decidable (IsSign d) := by unfold IsSign; infer_instance
instance (d : Nat) : Decidable (IsExp d) := by unfold IsExp; infer_instance

theorem ident2_uni (c : Nat) : isIdent2 c = true ↔ IsIdUni false c := by
  have := ident_uni false c; simpa using this

theorem pp_plain (fuel c : Nat) (p : List Nat) (h46 : c ≠ 46) (h39 : c ≠ 39) (he : ¬ IsExp c) :
    ppNumber false (fuel + 1) (c :: p) =
      if c = 36 then ppNumber false fuel p
      else if (isAlnum c || decide (c = 95)) = true then ppNumber false fuel p
      else if c ≥ 128 then
        match decodeUtf8 (c :: p) with
        | .ok (u, pos) => if isIdent2 u then ppNumber false fuel pos else .ok (c :: p)
        | .error => .error
        | .ub => .ub
      else .ok (c :: p) := by
  unfold IsExp at he
  simp only [ppNumber]
  rw [if_neg h46, if_neg (by simp [h39]; exact ⟨fun h => he (Or.inl h), fun h => he (Or.inr (Or.inl h)),
    fun h => he (Or.inr (Or.inr (Or.inl h))), fun h => he (Or.inr (Or.inr (Or.inr h)))⟩)]
  simp only
  rw [if_neg (by simp [h39]), if_neg (fun h => he h.1)]
  rfl

theorem pp_exp (fuel c d : Nat) (p : List Nat) (he : IsExp c) :
    ppNumber false (fuel + 1) (c :: d :: p) =
      if IsSign d then ppNumber false fuel p else ppNumber false fuel (d :: p) := by
  have h46 : c ≠ 46 := by unfold IsExp at he; omega
  have h39 : c ≠ 39 := by unfold IsExp at he; omega
  have h36 : c ≠ 36 := by unfold IsExp at he; omega
  have hal : isAlnum c = true := by rw [isAlnum_iff]; unfold IsExp IsLetter at *; omega
  simp only [ppNumber]
  have he' : c = 101 ∨ c = 69 ∨ c = 112 ∨ c = 80 := he
  rw [if_neg h46, if_pos (Or.inr he')]
  simp only [rd, List.getElem?_cons_zero]
  rw [if_neg (by simp [h39])]
  by_cases hs : IsSign d
  · have hs' : d = 43 ∨ d = 45 := hs
    rw [if_pos ⟨he', hs'⟩, if_pos hs]; rfl
  · rw [if_neg (fun h => hs h.2), if_neg h36, if_pos (by simp [hal]), if_neg hs]

theorem pp_quote (fuel d : Nat) (p : List Nat) :
    ppNumber false (fuel + 1) (39 :: d :: p) =
      if isAlnum d then ppNumber false fuel p else .ok (39 :: d :: p) := by
  have h1 : isAlnum 39 = false := by decide
  have h2 : rd (d :: p) 0 = .ok d := rfl
  simp [ppNumber, h1, h2]

theorem expAscii {c : Nat} (h : IsExp c) : IsIdAscii c := by
  unfold IsExp at h; unfold IsIdAscii IsLetter; omega

theorem ppNumber_sound (tail : List Nat) : ∀ (fuel : Nat) (s : List Nat), s.length < fuel →
    ppNumber false fuel (s ++ 0 :: tail) = .error ∨
    ∃ x s', s = x ++ s' ∧ ppNumber false fuel (s ++ 0 :: tail) = .ok (s' ++ 0 :: tail) ∧ PpRun x s' := by
  intro fuel
  induction fuel with
  | zero => intro s h; omega
  | succ fuel ih =>
    intro s hf
    cases s with
    | nil =>
      right
      refine ⟨[], [], rfl, ?_, .stop _ (not_starts_nil _) (not_starts_nil _) (by intro r h; cases h)
        (fun h => absurd h (not_starts_nil _))⟩
      rw [List.nil_append, pp_plain _ _ _ (by decide) (by decide) (by decide)]
      simp [isAlnum, isDigit]
    | cons c s =>
      have hs : s.length < fuel := by simp at hf; omega
      by_cases h46 : c = 46
      · subst h46
        simp only [List.cons_append, ppNumber, if_true]
        rcases ih s hs with h | ⟨x, s', rfl, h, hr⟩
        · exact Or.inl h
        · exact Or.inr ⟨46 :: x, s', rfl, h, .dot _ _ hr⟩
      · by_cases h39 : c = 39
        · subst h39
          cases s with
          | nil =>
            right
            rw [List.cons_append, List.nil_append, pp_quote, if_neg (by decide)]
            refine ⟨[], [39], rfl, rfl, .stop _ (by rw [starts_cons]; unfold IsIdAscii IsLetter IsDigit; omega) (by rw [starts_cons]; decide)
              ?_ (by rw [NoUni, starts_cons]; omega)⟩
            intro r h; cases h; exact not_starts_nil _
          | cons d s =>
            rw [List.cons_append, List.cons_append, pp_quote]
            by_cases hd : isAlnum d = true
            · rw [if_pos hd]
              rcases ih s (by simp at hs; omega) with h | ⟨x, s', rfl, h, hr⟩
              · exact Or.inl h
              · exact Or.inr ⟨39 :: d :: x, s', rfl, h, .sep _ _ _ ((isAlnum_iff d).1 hd) hr⟩
            · rw [if_neg hd]
              right
              refine ⟨[], 39 :: d :: s, rfl, rfl, .stop _ (by rw [starts_cons]; unfold IsIdAscii IsLetter IsDigit; omega) (by rw [starts_cons]; decide)
                ?_ (by rw [NoUni, starts_cons]; omega)⟩
              intro r h; cases h
              rw [starts_cons]; intro h; exact hd ((isAlnum_iff d).2 h)
        · by_cases he : IsExp c
          · -- exponent letter
            have base : ¬ StartsWith IsSign s → ppNumber false (fuel + 1) (c :: s ++ 0 :: tail) =
                ppNumber false fuel (s ++ 0 :: tail) := by
              intro hns
              cases s with
              | nil => rw [List.cons_append, List.nil_append, pp_exp _ _ _ _ he, if_neg (by decide)]
              | cons d s =>
                rw [starts_cons] at hns
                rw [List.cons_append, List.cons_append, pp_exp _ _ _ _ he, if_neg hns]
            by_cases hsg : StartsWith IsSign s
            · obtain ⟨d, s, rfl, hd⟩ := hsg
              rw [List.cons_append, List.cons_append, pp_exp _ _ _ _ he, if_pos hd]
              rcases ih s (by simp at hs; omega) with h | ⟨x, s', rfl, h, hr⟩
              · exact Or.inl h
              · exact Or.inr ⟨c :: d :: x, s', rfl, h, .exp _ _ _ _ he hd hr⟩
            · rw [base hsg]
              rcases ih s hs with h | ⟨x, s', rfl, h, hr⟩
              · exact Or.inl h
              · exact Or.inr ⟨c :: x, s', rfl, h, .ascii _ _ _ (expAscii he) (fun h => hsg h.2) hr⟩
          · rw [List.cons_append, pp_plain _ _ _ h46 h39 he]
            by_cases hc : IsIdAscii c
            · have e : (if c = 36 then ppNumber false fuel (s ++ 0 :: tail)
                  else if (isAlnum c || decide (c = 95)) = true then ppNumber false fuel (s ++ 0 :: tail)
                  else if c ≥ 128 then
                    match decodeUtf8 (c :: (s ++ 0 :: tail)) with
                    | .ok (u, pos) => if isIdent2 u then ppNumber false fuel pos else .ok (c :: (s ++ 0 :: tail))
                    | .error => .error
                    | .ub => .ub
                  else .ok (c :: (s ++ 0 :: tail))) = ppNumber false fuel (s ++ 0 :: tail) := by
                rw [idAscii_iff] at hc
                by_cases h36 : c = 36
                · rw [if_pos h36]
                · rw [if_neg h36, if_pos (by simpa [h36] using hc)]
              rw [e]
              rcases ih s hs with h | ⟨x, s', rfl, h, hr⟩
              · exact Or.inl h
              · exact Or.inr ⟨c :: x, s', rfl, h, .ascii _ _ _ hc (fun h => he h.1) hr⟩
            · have hc' := hc
              rw [idAscii_iff] at hc'
              rw [if_neg (by simp at hc'; exact hc'.1), if_neg (fun h => hc' (Or.inr h))]
              by_cases h128 : c ≥ 128
              · rw [if_pos h128]
                rcases decode_text (c :: s) tail (by simp) with h | ⟨u, bs, s', h, hbs, hl⟩
                · rw [List.cons_append] at h; rw [h]; exact Or.inl rfl
                · rw [List.cons_append] at h
                  simp only [h]
                  rcases loose_high hl with ⟨hb, hlt⟩ | ⟨hlen, hhigh⟩
                  · rw [hb] at hbs; simp at hbs; omega
                  · by_cases hid : IsIdUni false u
                    · rw [if_pos ((ident2_uni _).2 hid)]
                      have hls : s'.length < fuel := by
                        have := congrArg List.length hbs
                        simp at this hf; omega
                      rcases ih s' hls with h2 | ⟨x, s'', rfl, h2, hr⟩
                      · exact Or.inl h2
                      · right
                        exact ⟨bs ++ x, s'', by rw [hbs]; simp, h2, .uni _ _ _ _ hl hlen hid hr⟩
                    · rw [if_neg (fun h => hid ((ident2_uni _).1 h))]
                      right
                      refine ⟨[], c :: s, rfl, rfl, .stop _ (by rw [starts_cons]; exact hc)
                        (by rw [starts_cons]; exact h46) (by intro r h; cases h; exact absurd rfl h39) ?_⟩
                      intro _; exact ⟨u, bs, s', hbs, hl, hid⟩
              · rw [if_neg h128]
                right
                refine ⟨[], c :: s, rfl, rfl, .stop _ (by rw [starts_cons]; exact hc)
                  (by rw [starts_cons]; exact h46) (by intro r h; cases h; exact absurd rfl h39) ?_⟩
                rw [NoUni, starts_cons]; intro h; exact absurd h h128

theorem ppNumber_stop (fuel : Nat) (rest tail : List Nat) (h1 : ¬ StartsWith IsIdAscii rest)
    (h46 : ¬ StartsWith (· = 46) rest)
    (h39 : ∀ r, rest = 39 :: r → ¬ StartsWith (fun c => IsLetter c ∨ IsDigit c) r)
    (h2 : NoUni false rest) :
    ppNumber false (fuel + 1) (rest ++ 0 :: tail) = .ok (rest ++ 0 :: tail) := by
  cases rest with
  | nil =>
    rw [List.nil_append, pp_plain _ _ _ (by decide) (by decide) (by decide)]
    simp [isAlnum, isDigit]
  | cons c s =>
    rw [starts_cons] at h1 h46
    by_cases hq : c = 39
    · subst hq
      have := h39 s rfl
      cases s with
      | nil => rw [List.cons_append, List.nil_append, pp_quote, if_neg (by decide)]
      | cons d s =>
        rw [starts_cons] at this
        rw [List.cons_append, List.cons_append, pp_quote, if_neg (fun h => this ((isAlnum_iff d).1 h))]
    · have he : ¬ IsExp c := fun h => h1 (expAscii h)
      have hc' := h1
      rw [idAscii_iff] at hc'
      rw [List.cons_append, pp_plain _ _ _ h46 hq he,
        if_neg (by simp at hc'; exact hc'.1), if_neg (fun h => hc' (Or.inr h))]
      split
      · rename_i h128
        obtain ⟨u, bs, r, hb, hl, hid⟩ := h2 (by rw [starts_cons]; exact h128)
        have : decodeUtf8 (c :: (s ++ 0 :: tail)) = .ok (u, r ++ 0 :: tail) := by
          rw [decode_iff]
          refine ⟨bs, ?_, hl⟩
          rw [← List.cons_append, hb]; simp
        rw [this]
        simp only
        rw [if_neg (fun h => hid ((ident2_uni _).1 h))]
      · rfl

theorem ppNumber_complete (tail : List Nat) (x rest : List Nat) (h : PpRun x rest) :
    ∀ (fuel : Nat), x.length < fuel →
    ppNumber false fuel (x ++ rest ++ 0 :: tail) = .ok (rest ++ 0 :: tail) := by
  induction h with
  | stop rest h1 h2 h3 h4 =>
    intro fuel hf
    cases fuel with
    | zero => simp at hf
    | succ f => exact ppNumber_stop f rest tail h1 h2 h3 h4
  | dot x rest _ ih =>
    intro fuel hf
    cases fuel with
    | zero => simp at hf
    | succ f =>
      simp only [List.cons_append, ppNumber, if_true]
      exact ih f (by simp at hf; omega)
  | sep c x rest hc _ ih =>
    intro fuel hf
    cases fuel with
    | zero => simp at hf
    | succ f =>
      rw [List.cons_append, List.cons_append, List.cons_append, List.cons_append, pp_quote,
        if_pos ((isAlnum_iff c).2 hc)]
      exact ih f (by simp at hf; omega)
  | exp e s x rest he hs _ ih =>
    intro fuel hf
    cases fuel with
    | zero => simp at hf
    | succ f =>
      rw [List.cons_append, List.cons_append, List.cons_append, List.cons_append, pp_exp _ _ _ _ he, if_pos hs]
      exact ih f (by simp at hf; omega)
  | ascii c x rest hc hn _ ih =>
    intro fuel hf
    cases fuel with
    | zero => simp at hf
    | succ f =>
      have ih := ih f (by simp at hf; omega)
      obtain ⟨h1, h2, h3, h4⟩ := idAscii_lt hc
      by_cases he : IsExp c
      · have hns : ¬ StartsWith IsSign (x ++ rest) := fun h => hn ⟨he, h⟩
        rw [List.cons_append, List.cons_append]
        cases hxr : x ++ rest with
        | nil =>
          rw [hxr] at ih
          rw [List.nil_append, pp_exp _ _ _ _ he, if_neg (by decide)]
          exact ih
        | cons d r =>
          rw [hxr] at ih hns
          rw [starts_cons] at hns
          rw [List.cons_append, pp_exp _ _ _ _ he, if_neg hns]
          exact ih
      · rw [List.cons_append, List.cons_append, pp_plain _ _ _ h3 h4 he]
        rw [idAscii_iff] at hc
        by_cases h36 : c = 36
        · rw [if_pos h36]; exact ih
        · rw [if_neg h36, if_pos (by simpa [h36] using hc)]; exact ih
  | uni c bs x rest hl hlen hid _ ih =>
    intro fuel hf
    cases fuel with
    | zero => simp at hf
    | succ f =>
      have hx := ih f (by simp at hf; omega)
      rcases loose_high hl with ⟨hb, _⟩ | ⟨_, hhigh⟩
      · rw [hb] at hlen; simp at hlen
      · cases bs with
        | nil => simp at hlen
        | cons b bs =>
          have hb := hhigh b (by simp)
          have hd : decodeUtf8 (b :: (bs ++ (x ++ (rest ++ 0 :: tail)))) = .ok (c, x ++ (rest ++ 0 :: tail)) := by
            rw [decode_iff]; exact ⟨b :: bs, by simp, hl⟩
          have hna : ¬ IsIdAscii b := by intro h; have := idAscii_lt h; omega
          have he : ¬ IsExp b := fun h => hna (expAscii h)
          rw [idAscii_iff] at hna
          simp only [List.cons_append, List.append_assoc]
          rw [pp_plain _ _ _ (by omega) (by omega) he,
            if_neg (by simp at hna; exact hna.1), if_neg (fun h => hna (Or.inr h)), if_pos hb, hd]
          simp only
          rw [if_pos ((ident2_uni _).2 hid)]
          simpa using hx

end Slimcc.Lex
