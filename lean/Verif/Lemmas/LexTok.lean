import Verif.Lemmas.LexStep
set_option autoImplicit false
namespace Slimcc.Lex
open Slimcc Slimcc.Source Slimcc.Unicode Slimcc.Spec Slimcc.Props

/-- The head of a text in memory, when no special first character starts here. -/
theorem step_word (c : Nat) (s tail : List Nat)
    (h : IsIdAscii c ∨ 128 ≤ c ∨ c = 34 ∨ c = 39) (hd : ¬ IsDigit c) :
    step false (c :: s ++ 0 :: tail) =
      stepWord false c (s.headD 0) (if c = 117 ∧ s.headD 0 = 56 then (s.drop 1).headD 0 else 0) (s ++ 0 :: tail) := by
  have h' := h
  unfold IsIdAscii IsLetter IsDigit at h
  have hd' := hd
  unfold IsDigit at hd
  rw [List.cons_append, step, if_neg (by omega), if_neg (by omega), rd_text]
  simp only
  have hne : c ≠ 47 := by omega
  have hne2 : c ≠ 46 := by omega
  rw [if_neg (fun e => hne e.1), if_neg (fun e => hne e.1), if_neg hne2, if_neg (by rw [isDigit_iff]; exact hd')]
  have hp : readPunct false (c :: (s ++ 0 :: tail)) = .ok 0 := by
    cases s with
    | nil => exact readPunct_zero c _ _ h'
    | cons d s => exact readPunct_zero c _ _ h'
  rw [hp]
  simp only
  by_cases hu : c = 117 ∧ s.headD 0 = 56
  · rw [if_pos hu, if_pos hu]
    have : rd (s ++ 0 :: tail) 1 = .ok ((s.drop 1).headD 0) := by
      cases s with
      | nil => simp at hu
      | cons d s => cases s <;> simp [rd]
    rw [this]
  · rw [if_neg hu, if_neg hu]

theorem strPre_cases {pre : List Nat} {e : StrEnc} (h : (pre, e) ∈ strPrefixes) :
    (pre = [] ∧ e = .narrow) ∨ (pre = [117, 56] ∧ e = .narrow) ∨ (pre = [117] ∧ e = .utf16) ∨
    (pre = [76] ∧ e = .wide) ∨ (pre = [85] ∧ e = .utf32) := by
  have e1 : strPrefixes = [([], .narrow), ([117, 56], .narrow), ([117], .utf16), ([76], .wide), ([85], .utf32)] := by decide
  rw [e1] at h; simpa using h

theorem chrPre_cases {pre : List Nat} {e : CharTy} (h : (pre, e) ∈ chrPrefixes) :
    (pre = [] ∧ e = .int) ∨ (pre = [117] ∧ e = .ushort) ∨ (pre = [76] ∧ e = .int) ∨ (pre = [85] ∧ e = .uint) := by
  have e2 : chrPrefixes = [([], .int), ([117], .ushort), ([76], .int), ([85], .uint)] := by decide
  rw [e2] at h; simpa using h

theorem chrValue_eqs (v : Nat) (h : v < 2 ^ 32) : chrValue [] v = s8 v ∧ chrValue [117] v = ((v % 2 ^ 16 : Nat) : Int) ∧
    chrValue [76] v = s32 v ∧ chrValue [85] v = s32 v := by
  refine ⟨?_, rfl, ?_, ?_⟩
  · rw [s8_eq]; rfl
  · rw [s32_eq v h]; rfl
  · rw [s32_eq v h]; rfl

theorem tokenText_ne {k : Kind} {v : Val} {x rest : List Nat} (h : TokenText k v x rest) : x ≠ [] := by
  cases h with
  | num pre d y => simp
  | punct h => assumption
  | str => simp
  | chr => simp
  | ident h => assumption

theorem step_complete {k : Kind} {v : Val} {x rest : List Nat} (tail : List Nat) (h : TokenText k v x rest)
    (h256 : ∀ b ∈ x, b < 256) (hz : ∀ b ∈ x ++ rest, b ≠ 0) :
    step false (x ++ rest ++ 0 :: tail) = .ok (.tok k v (rest ++ 0 :: tail)) := by
  cases h with
  | num pre d y _ hpre hd hrun =>
    have hc := ppNumber_complete tail y rest hrun
    rcases hpre with rfl | rfl
    · simp only [List.nil_append, List.cons_append]
      have hd' := hd
      unfold IsDigit at hd
      rw [step, if_neg (by omega), if_neg (by omega), rd_text]
      simp only
      have hne : d ≠ 47 := by omega
      have hne2 : d ≠ 46 := by omega
      rw [if_neg (fun e => hne e.1), if_neg (fun e => hne e.1), if_neg hne2, if_pos ((isDigit_iff d).2 hd'), if_neg hne2,
        hc _ (by simp; omega)]
    · simp only [List.nil_append, List.cons_append]
      rw [step, if_neg (by omega), if_neg (by omega)]
      simp only [rd, List.getElem?_cons_zero]
      rw [if_neg (by simp), if_neg (by simp)]
      simp only [if_true]
      rw [if_pos ((isDigit_iff d).2 hd)]
      simp only [List.drop_succ_cons, List.drop_zero]
      rw [hc _ (by simp; omega)]
  | punct _ _ hne hlong hcom hdot =>
    cases x with
    | nil => exact absurd rfl hne
    | cons c s =>
      rw [List.cons_append] at *
      obtain ⟨n, hn, hn2⟩ := C09_maximal_munch c (s ++ rest) tail hz
      have hnn : n = s.length + 1 := IsLongest.unique hn2 hlong
      subst hnn
      rw [List.cons_append] at hn
      -- the first character is not a white space
      have hmem : ∃ p ∈ punctuators, p <+: c :: (s ++ rest) ∧ p.length = s.length + 1 := by
        rcases hlong.1 with h | h
        · simp at h
        · exact h
      have hcw : c ≠ 10 ∧ ¬ (c = 32 ∨ c = 9 ∨ c = 11 ∨ c = 12) ∧ ¬ IsDigit c := by
        obtain ⟨p, hp, hp2, hp3⟩ := hmem
        cases p with
        | nil => simp at hp3
        | cons p0 p =>
          have hall : ∀ p ∈ punctuators, ∀ a ∈ p.head?, a ≠ 10 ∧ ¬ (a = 32 ∨ a = 9 ∨ a = 11 ∨ a = 12) ∧ ¬ (48 ≤ a ∧ a ≤ 57) := by decide
          have h3 := hall _ hp p0 (by simp)
          rw [List.cons_prefix_cons] at hp2
          rw [hp2.1] at h3; exact h3
      rw [List.cons_append, step, if_neg hcw.1, if_neg hcw.2.1, rd_text]
      simp only
      have hncomm := hcom
      unfold StartsComment at hncomm
      rw [prefix2 _ _ _ _ (by decide), prefix2 _ _ _ _ (by decide)] at hncomm
      rw [if_neg (fun h => hncomm (Or.inl h)), if_neg (fun h => hncomm (Or.inr h)), if_neg, hn]
      · simp only
        rw [List.append_assoc, List.drop_left]
      · by_cases h46 : c = 46
        · rw [if_pos h46, isDigit_iff]
          intro hdg
          refine hdot (s ++ rest) (by rw [h46]) ?_
          cases hsr : s ++ rest with
          | nil => rw [hsr] at hdg; unfold IsDigit at hdg; simp at hdg
          | cons d r => rw [hsr] at hdg; rw [starts_cons]; exact hdg
        · rw [if_neg h46, isDigit_iff]; exact hcw.2.2
  | str pre e t us _ hpre hbody =>
    have hzt : ∀ b ∈ t, b ≠ 0 := fun b hb => hz b (by simp [hb])
    have ht : ∀ b ∈ t, b < 256 := fun b hb => h256 b (by simp [hb])
    have hr : ∀ n, strStep e n (t ++ 34 :: (rest ++ 0 :: tail)) = .ok (.tok .str (.str e us) (rest ++ 0 :: tail)) := by
      intro n; unfold strStep; rw [readString_complete e n _ hbody hzt ht]
    have hlit : IsIdAscii 117 ∧ IsIdAscii 76 ∧ IsIdAscii 85 ∧ ¬ IsDigit 34 ∧ ¬ IsDigit 117 ∧ ¬ IsDigit 76 ∧ ¬ IsDigit 85 := by
      unfold IsIdAscii IsLetter IsDigit; omega
    obtain ⟨l1, l2, l3, l4, l5, l6, l7⟩ := hlit
    rcases strPre_cases hpre with ⟨rfl, rfl⟩ | ⟨rfl, rfl⟩ | ⟨rfl, rfl⟩ | ⟨rfl, rfl⟩ | ⟨rfl, rfl⟩
    · have := step_word 34 (t ++ 34 :: rest) tail (by simp) l4
      simp only [List.nil_append, List.cons_append, List.append_assoc] at this ⊢
      rw [this, stepWord, if_pos rfl]; exact hr _
    · have := step_word 117 (56 :: 34 :: t ++ 34 :: rest) tail (Or.inl l1) l5
      simp only [List.nil_append, List.cons_append, List.append_assoc, List.headD_cons, List.drop_succ_cons, List.drop_zero] at this ⊢
      rw [this, stepWord, if_neg (by decide), if_pos (by simp)]; exact hr _
    · have := step_word 117 (34 :: t ++ 34 :: rest) tail (Or.inl l1) l5
      simp only [List.nil_append, List.cons_append, List.append_assoc, List.headD_cons, List.drop_succ_cons, List.drop_zero] at this ⊢
      rw [this, stepWord, if_neg (by decide), if_neg (by simp), if_pos (by simp)]; exact hr _
    · have := step_word 76 (34 :: t ++ 34 :: rest) tail (Or.inl l2) l6
      simp only [List.nil_append, List.cons_append, List.append_assoc, List.headD_cons, List.drop_succ_cons, List.drop_zero] at this ⊢
      rw [this, stepWord, if_neg (by decide), if_neg (by simp), if_neg (by simp), if_pos (by simp)]; exact hr _
    · have := step_word 85 (34 :: t ++ 34 :: rest) tail (Or.inl l3) l7
      simp only [List.nil_append, List.cons_append, List.append_assoc, List.headD_cons, List.drop_succ_cons, List.drop_zero] at this ⊢
      rw [this, stepWord, if_neg (by decide), if_neg (by simp), if_neg (by simp), if_neg (by simp), if_pos (by simp)]; exact hr _
  | chr pre ty cv b junk _ hpre hbody hj =>
    have hzt : ∀ y ∈ b ++ junk, y ≠ 0 := fun y hy => hz y (by simp at hy; rcases hy with hy | hy <;> simp [hy])
    have hlt : cv < 2 ^ 32 := chrBody_lt hbody (fun y hy => h256 y (by simp [hy]))
    have hr : ∀ f, chrStep f ty (b ++ (junk ++ 39 :: (rest ++ 0 :: tail))) = .ok (.tok .intNum (.chr (f cv) ty) (rest ++ 0 :: tail)) := by
      intro f; unfold chrStep; rw [← List.append_assoc, readCharLit_complete cv b junk _ hbody hj hzt]
    have hlit : IsIdAscii 117 ∧ IsIdAscii 76 ∧ IsIdAscii 85 ∧ ¬ IsDigit 39 ∧ ¬ IsDigit 117 ∧ ¬ IsDigit 76 ∧ ¬ IsDigit 85 := by
      unfold IsIdAscii IsLetter IsDigit; omega
    obtain ⟨l1, l2, l3, l4, l5, l6, l7⟩ := hlit
    obtain ⟨e1, e2, e3, e4⟩ := chrValue_eqs cv hlt
    rcases chrPre_cases hpre with ⟨rfl, rfl⟩ | ⟨rfl, rfl⟩ | ⟨rfl, rfl⟩ | ⟨rfl, rfl⟩
    · have := step_word 39 (b ++ (junk ++ 39 :: rest)) tail (by simp) l4
      simp only [List.nil_append, List.cons_append, List.append_assoc] at this ⊢
      rw [this, stepWord, if_neg (by decide), if_neg (by simp), if_neg (by simp), if_neg (by simp), if_neg (by simp), if_pos rfl, hr, e1]
    · have := step_word 117 (39 :: (b ++ (junk ++ 39 :: rest))) tail (Or.inl l1) l5
      simp only [List.nil_append, List.cons_append, List.append_assoc, List.headD_cons, List.drop_succ_cons, List.drop_zero] at this ⊢
      rw [this, stepWord, if_neg (by decide), if_neg (by simp), if_neg (by simp), if_neg (by simp), if_neg (by simp), if_neg (by decide), if_pos (by simp), e2]
      exact hr _
    · have := step_word 76 (39 :: (b ++ (junk ++ 39 :: rest))) tail (Or.inl l2) l6
      simp only [List.nil_append, List.cons_append, List.append_assoc, List.headD_cons, List.drop_succ_cons, List.drop_zero] at this ⊢
      rw [this, stepWord, if_neg (by decide), if_neg (by simp), if_neg (by simp), if_neg (by simp), if_neg (by simp), if_neg (by decide), if_neg (by simp), if_pos (by simp), e3]
      exact hr _
    · have := step_word 85 (39 :: (b ++ (junk ++ 39 :: rest))) tail (Or.inl l3) l7
      simp only [List.nil_append, List.cons_append, List.append_assoc, List.headD_cons, List.drop_succ_cons, List.drop_zero] at this ⊢
      rw [this, stepWord, if_neg (by decide), if_neg (by simp), if_neg (by simp), if_neg (by simp), if_neg (by simp), if_neg (by decide), if_neg (by simp), if_neg (by simp), if_pos (by simp), e4]
      exact hr _
  | ident _ _ hne hrun hnd hnl =>
    cases x with
    | nil => exact absurd rfl hne
    | cons c s =>
      rw [starts_cons] at hnd
      have hc : IsIdAscii c ∨ 128 ≤ c := by
        generalize hx : c :: s = x at hrun
        cases hrun with
        | stop => cases hx
        | ascii _ c' _ _ h => injection hx with h1 h2; rw [h1]; exact Or.inl h
        | uni _ c' bs y _ hl h2 _ _ =>
          right
          cases bs with
          | nil => simp at h2
          | cons b bs =>
            simp at hx
            rw [hx.1]
            rcases loose_high hl with ⟨h3, _⟩ | ⟨_, h3⟩
            · rw [h3] at h2; simp at h2
            · exact h3 b (by simp)
      have hw := step_word c (s ++ rest) tail (by rcases hc with h | h; exact Or.inl h; exact Or.inr (Or.inl h)) hnd
      rw [List.cons_append] at hnl
      rw [List.cons_append, hw]
      rw [startsLiteral_iff] at hnl
      unfold stepWord
      rw [if_neg (by omega), if_neg, if_neg (by omega), if_neg (by omega),
        if_neg (by omega), if_neg (by omega), if_neg (by omega), if_neg (by omega), if_neg (by omega)]
      · have hcc := readIdent_complete tail true (c :: s) rest hrun ((s ++ rest ++ 0 :: tail).length + 2) (by simp; omega)
        rw [List.cons_append, List.cons_append] at hcc
        rw [hcc]
        simp only
        rw [if_pos (by simp; omega)]
      · rintro ⟨h1, h2, h3⟩
        rw [if_pos ⟨h1, h2⟩] at h3
        exact hnl (Or.inl (Or.inr (Or.inl ⟨h1, h2, h3⟩)))

end Slimcc.Lex
