import Verif.Spec.Lex
import Verif.Props.C04
import Verif.Props.C06
import Verif.Props.C09
set_option autoImplicit false
namespace Slimcc.Lex
open Slimcc Slimcc.Source Slimcc.Unicode Slimcc.Spec Slimcc.Props

theorem isDigit_iff (c : Nat) : isDigit c = true ↔ IsDigit c := by
  simp [isDigit, IsDigit]

theorem isOctal_iff (c : Nat) : isOctal c = true ↔ IsOctal c := by
  simp [isOctal, IsOctal]

theorem isXdigit_iff (c : Nat) : isXdigit c = true ↔ IsHex c := by
  simp [isXdigit, IsHex, IsDigit, or_assoc]

theorem or32 (c : Nat) : (97 ≤ c ||| 32 ∧ c ||| 32 ≤ 122) ↔ IsLetter c := by
  unfold IsLetter
  by_cases h : c < 128
  · have key : ∀ c : Fin 128, (97 ≤ c.val ||| 32 ∧ c.val ||| 32 ≤ 122) ↔
        ((65 ≤ c.val ∧ c.val ≤ 90) ∨ (97 ≤ c.val ∧ c.val ≤ 122)) := by decide
    exact key ⟨c, h⟩
  · have : c ≤ c ||| 32 := Nat.left_le_or
    constructor
    · rintro ⟨_, h⟩; omega
    · rintro (h | h) <;> omega

theorem isAlnum_iff (c : Nat) : isAlnum c = true ↔ IsLetter c ∨ IsDigit c := by
  rw [isAlnum, Bool.or_eq_true, Bool.and_eq_true, decide_eq_true_eq, decide_eq_true_eq, or32, isDigit_iff]

theorem and_mask (k x : Nat) (h : k = 3 ∨ k = 4 ∨ k = 5 ∨ k = 6) : x &&& MASK k = x % 2 ^ k := by
  rcases h with rfl | rfl | rfl | rfl
  · have : MASK 3 = 2 ^ 3 - 1 := by decide
    rw [this, Nat.and_two_pow_sub_one_eq_mod]
  · have : MASK 4 = 2 ^ 4 - 1 := by decide
    rw [this, Nat.and_two_pow_sub_one_eq_mod]
  · have : MASK 5 = 2 ^ 5 - 1 := by decide
    rw [this, Nat.and_two_pow_sub_one_eq_mod]
  · have : MASK 6 = 2 ^ 6 - 1 := by decide
    rw [this, Nat.and_two_pow_sub_one_eq_mod]

theorem cont_iff (n c : Nat) (p : List Nat) (hc : c < 2 ^ 26) (c' : Nat) (r : List Nat) :
    decodeCont (n + 1) c p = .ok (c', r) ↔
      ∃ b p', p = b :: p' ∧ Cont b ∧ decodeCont n (c * 64 + b % 64) p' = .ok (c', r) := by
  cases p with
  | nil => simp [decodeCont]
  | cons b p =>
    by_cases hb : Cont b
    · rw [cont_step n c b p hb.1 hb.2 hc]
      have : b - 128 = b % 64 := by have := hb.1; have := hb.2; omega
      rw [this]
      constructor
      · intro h; exact ⟨b, p, rfl, hb, h⟩
      · rintro ⟨_, _, h, _, h2⟩; cases h; exact h2
    · have h1 : b >>> 6 ≠ MASK2 1 1 := by
        have e : MASK2 1 1 = 2 := by decide
        rw [e, Nat.shiftRight_eq_div_pow]; unfold Cont at hb; omega
      simp only [decodeCont, if_pos h1]
      constructor
      · intro h; cases h
      · rintro ⟨b', p', h, hb', _⟩; cases h; exact absurd hb' hb

theorem decode_iff (p : List Nat) (c : Nat) (r : List Nat) :
    decodeUtf8 p = .ok (c, r) ↔ ∃ bs, p = bs ++ r ∧ LooseUtf8 c bs := by
  have m4 : MASK2 4 4 = 240 := by decide
  have m3 : MASK2 3 5 = 224 := by decide
  have m2 : MASK2 2 6 = 192 := by decide
  cases p with
  | nil =>
    simp only [decodeUtf8]
    constructor
    · intro h; cases h
    · rintro ⟨bs, h, hl⟩
      have : bs = [] := by cases bs <;> simp_all
      subst this
      rcases hl with ⟨_, h, _⟩ | ⟨_, _, h, _⟩ | ⟨_, _, _, h, _⟩ | ⟨_, _, _, _, h, _⟩ <;> cases h
  | cons b p =>
    simp only [decodeUtf8, m4, m3, m2]
    have e3 := and_mask 3 b (by simp)
    have e4 := and_mask 4 b (by simp)
    have e5 := and_mask 5 b (by simp)
    by_cases h1 : b < 128
    · rw [if_pos h1]
      constructor
      · intro h
        simp only [Outcome.ok.injEq, Prod.mk.injEq] at h
        exact ⟨[b], by rw [h.2]; rfl, Or.inl ⟨b, rfl, h1, h.1.symm⟩⟩
      · rintro ⟨bs, h, ⟨x, rfl, hx, rfl⟩ | ⟨x, y, rfl, h2, h3, _⟩ | ⟨x, y, z, rfl, h2, h3, _⟩ | ⟨x, y, z, w, rfl, h2, _⟩⟩
        · simp at h; obtain ⟨rfl, rfl⟩ := h; rfl
        all_goals (simp at h; obtain ⟨rfl, _⟩ := h; omega)
    · rw [if_neg h1]
      by_cases h4 : b ≥ 240
      · rw [if_pos h4, e3, cont_iff _ _ _ (by omega)]
        constructor
        · rintro ⟨b2, p2, rfl, hb2, h⟩
          rw [cont_iff _ _ _ (by omega)] at h
          obtain ⟨b3, p3, rfl, hb3, h⟩ := h
          rw [cont_iff _ _ _ (by omega)] at h
          obtain ⟨b4, p4, rfl, hb4, h⟩ := h
          simp only [decodeCont] at h; cases h
          exact ⟨[b, b2, b3, b4], rfl, Or.inr (Or.inr (Or.inr ⟨b, b2, b3, b4, rfl, h4, hb2, hb3, hb4, rfl⟩))⟩
        · rintro ⟨bs, h, ⟨x, rfl, hx, rfl⟩ | ⟨x, y, rfl, h2, h3, _⟩ | ⟨x, y, z, rfl, h2, h3, _⟩ | ⟨x, y, z, w, rfl, h2, h5, h6, h7, rfl⟩⟩
          · simp at h; omega
          · simp at h; omega
          · simp at h; omega
          · simp at h; obtain ⟨rfl, rfl⟩ := h
            refine ⟨y, _, rfl, h5, ?_⟩
            rw [cont_iff _ _ _ (by omega)]
            refine ⟨z, _, rfl, h6, ?_⟩
            rw [cont_iff _ _ _ (by omega)]
            exact ⟨w, _, rfl, h7, rfl⟩
      · rw [if_neg h4]
        by_cases h5 : b ≥ 224
        · rw [if_pos h5, e4, cont_iff _ _ _ (by omega)]
          constructor
          · rintro ⟨b2, p2, rfl, hb2, h⟩
            rw [cont_iff _ _ _ (by omega)] at h
            obtain ⟨b3, p3, rfl, hb3, h⟩ := h
            simp only [decodeCont] at h; cases h
            exact ⟨[b, b2, b3], rfl, Or.inr (Or.inr (Or.inl ⟨b, b2, b3, rfl, h5, by omega, hb2, hb3, rfl⟩))⟩
          · rintro ⟨bs, h, ⟨x, rfl, hx, rfl⟩ | ⟨x, y, rfl, h2, h3, _⟩ | ⟨x, y, z, rfl, h2, h3, h6, h7, rfl⟩ | ⟨x, y, z, w, rfl, h2, _⟩⟩
            · simp at h; omega
            · simp at h; omega
            · simp at h; obtain ⟨rfl, rfl⟩ := h
              refine ⟨y, _, rfl, h6, ?_⟩
              rw [cont_iff _ _ _ (by omega)]
              exact ⟨z, _, rfl, h7, rfl⟩
            · simp at h; omega
        · rw [if_neg h5]
          by_cases h6 : b ≥ 192
          · rw [if_pos h6, e5, cont_iff _ _ _ (by omega)]
            constructor
            · rintro ⟨b2, p2, rfl, hb2, h⟩
              simp only [decodeCont] at h; cases h
              exact ⟨[b, b2], rfl, Or.inr (Or.inl ⟨b, b2, rfl, h6, by omega, hb2, rfl⟩)⟩
            · rintro ⟨bs, h, ⟨x, rfl, hx, rfl⟩ | ⟨x, y, rfl, h2, h3, h7, rfl⟩ | ⟨x, y, z, rfl, h2, h3, _⟩ | ⟨x, y, z, w, rfl, h2, _⟩⟩
              · simp at h; omega
              · simp at h; obtain ⟨rfl, rfl⟩ := h
                exact ⟨y, _, rfl, h7, rfl⟩
              · simp at h; omega
              · simp at h; omega
          · rw [if_neg h6]
            constructor
            · intro h; cases h
            · rintro ⟨bs, h, ⟨x, rfl, hx, rfl⟩ | ⟨x, y, rfl, h2, h3, _⟩ | ⟨x, y, z, rfl, h2, h3, _⟩ | ⟨x, y, z, w, rfl, h2, _⟩⟩ <;>
                (simp at h; omega)

/-- Decoding inside a NUL-terminated text. -/
theorem decode_text (s tail : List Nat) (hs : s ≠ []) :
    decodeUtf8 (s ++ 0 :: tail) = .error ∨
    ∃ c bs s', decodeUtf8 (s ++ 0 :: tail) = .ok (c, s' ++ 0 :: tail) ∧ s = bs ++ s' ∧ LooseUtf8 c bs := by
  cases s with
  | nil => exact absurd rfl hs
  | cons b p =>
    obtain ⟨h1, h2⟩ := C04_decode_in_bounds b p tail
    cases hd : decodeUtf8 (b :: p ++ 0 :: tail) with
    | ub => exact absurd hd h1
    | error => exact Or.inl rfl
    | ok cr =>
      obtain ⟨c, r⟩ := cr
      right
      obtain ⟨p', hr, u, hu⟩ := h2 c r hd
      obtain ⟨bs, h3, h4⟩ := (decode_iff _ _ _).1 hd
      rw [hr] at h3
      have : b :: p = bs ++ p' := by
        have e : b :: p ++ 0 :: tail = (bs ++ p') ++ 0 :: tail := by simpa using h3
        exact List.append_cancel_right e
      exact ⟨c, bs, p', by rw [hr], this, h4⟩

theorem loose_pos {c : Nat} {bs : List Nat} (h : LooseUtf8 c bs) : 0 < bs.length := by
  rcases h with ⟨_, rfl, _⟩ | ⟨_, _, rfl, _⟩ | ⟨_, _, _, rfl, _⟩ | ⟨_, _, _, _, rfl, _⟩ <;> simp

/-- A multi-byte form consists of bytes of at least 128; a one-byte form is ASCII. -/
theorem loose_high {c : Nat} {bs : List Nat} (h : LooseUtf8 c bs) :
    (bs = [c] ∧ c < 128) ∨ (2 ≤ bs.length ∧ ∀ b ∈ bs, 128 ≤ b) := by
  rcases h with ⟨b, rfl, h, rfl⟩ | ⟨a, b, rfl, h1, h2, h3, rfl⟩ | ⟨a, b, d, rfl, h1, h2, h3, h4, rfl⟩ | ⟨a, b, d, e, rfl, h1, h2, h3, h4, rfl⟩
  · exact Or.inl ⟨rfl, h⟩
  · right; refine ⟨by simp, ?_⟩
    intro x hx; simp at hx; have := h3.1; rcases hx with rfl | rfl <;> omega
  · right; refine ⟨by simp, ?_⟩
    intro x hx; simp at hx; have := h3.1; have := h4.1; rcases hx with rfl | rfl | rfl <;> omega
  · right; refine ⟨by simp, ?_⟩
    intro x hx; simp at hx; have := h2.1; have := h3.1; have := h4.1; rcases hx with rfl | rfl | rfl | rfl <;> omega

theorem ident_uni (first : Bool) (c : Nat) :
    (if first then isIdent1 c else isIdent2 c) = true ↔ IsIdUni first c := by
  cases first
  · simp [IsIdUni, C06_ident2_iff]
  · simp [IsIdUni, C06_ident1_iff]

theorem not_starts_nil (P : Nat → Prop) : ¬ StartsWith P [] := by rintro ⟨_, _, h, _⟩; cases h

theorem starts_cons (P : Nat → Prop) (b : Nat) (r : List Nat) : StartsWith P (b :: r) ↔ P b := by
  constructor
  · rintro ⟨_, _, h, hp⟩; cases h; exact hp
  · intro h; exact ⟨b, r, rfl, h⟩

theorem idAscii_iff (c : Nat) : IsIdAscii c ↔ c = 36 ∨ (isAlnum c || decide (c = 95)) = true := by
  rw [Bool.or_eq_true, isAlnum_iff, decide_eq_true_eq]; unfold IsIdAscii
  constructor
  · rintro (h | h | h | h) <;> simp [h]
  · rintro (h | (h | h) | h) <;> simp [h]

theorem idAscii_lt {c : Nat} (h : IsIdAscii c) : c < 128 ∧ c ≠ 0 ∧ c ≠ 46 ∧ c ≠ 39 := by
  unfold IsIdAscii IsLetter IsDigit at h; omega

theorem readIdent_sound (tail : List Nat) : ∀ (fuel : Nat) (first : Bool) (s : List Nat),
    s.length < fuel →
    readIdent false fuel first (s ++ 0 :: tail) = .error ∨
    ∃ x s', s = x ++ s' ∧ readIdent false fuel first (s ++ 0 :: tail) = .ok (s' ++ 0 :: tail) ∧
      IdentRun first x s' := by
  intro fuel
  induction fuel with
  | zero => intro _ s h; omega
  | succ fuel ih =>
    intro first s hf
    cases s with
    | nil =>
      right
      refine ⟨[], [], rfl, ?_, .stop _ _ (not_starts_nil _) (fun h => absurd h (not_starts_nil _))⟩
      simp [readIdent, isAlnum, isDigit]
    | cons c s =>
      have hs : s.length < fuel := by simp at hf; omega
      have go : IsIdAscii c → readIdent false (fuel + 1) first (c :: s ++ 0 :: tail) =
          readIdent false fuel false (s ++ 0 :: tail) := by
        intro hc
        rw [idAscii_iff] at hc
        simp only [List.cons_append, readIdent]
        by_cases h36 : c = 36
        · simp [h36]
        · rw [if_neg h36, if_pos (by simpa [h36] using hc)]
      by_cases hc : IsIdAscii c
      · rw [go hc]
        rcases ih false s hs with h | ⟨x, s', rfl, h, hr⟩
        · exact Or.inl h
        · exact Or.inr ⟨c :: x, s', rfl, h, .ascii _ _ _ _ hc hr⟩
      · have hc' := hc
        rw [idAscii_iff] at hc'
        have e : readIdent false (fuel + 1) first (c :: s ++ 0 :: tail) =
            if c ≥ 128 then
              match decodeUtf8 (c :: (s ++ 0 :: tail)) with
              | .ok (u, pos) =>
                if (if first then isIdent1 u else isIdent2 u) then readIdent false fuel false pos
                else .ok (c :: (s ++ 0 :: tail))
              | .error => .error
              | .ub => .ub
            else .ok (c :: (s ++ 0 :: tail)) := by
          simp only [List.cons_append, readIdent]
          rw [if_neg (by simp at hc'; exact hc'.1), if_neg (fun h => hc' (Or.inr h))]
          rfl
        rw [e]
        by_cases h128 : c ≥ 128
        · rw [if_pos h128]
          rcases decode_text (c :: s) tail (by simp) with h | ⟨u, bs, s', h, hbs, hl⟩
          · rw [List.cons_append] at h; rw [h]; exact Or.inl rfl
          · rw [List.cons_append] at h
            simp only [h]
            rcases loose_high hl with ⟨hb, hlt⟩ | ⟨hlen, hhigh⟩
            · rw [hb] at hbs; simp at hbs; omega
            · by_cases hid : IsIdUni first u
              · rw [if_pos ((ident_uni _ _).2 hid)]
                have hls : s'.length < fuel := by
                  have := congrArg List.length hbs
                  simp at this hf; omega
                rcases ih false s' hls with h2 | ⟨x, s'', rfl, h2, hr⟩
                · exact Or.inl h2
                · right
                  exact ⟨bs ++ x, s'', by rw [hbs]; simp, h2, .uni _ _ _ _ _ hl hlen hid hr⟩
              · rw [if_neg (fun h => hid ((ident_uni _ _).1 h))]
                right
                refine ⟨[], c :: s, rfl, rfl, .stop _ _ (by rw [starts_cons]; exact hc) ?_⟩
                intro _; exact ⟨u, bs, s', hbs, hl, hid⟩
        · rw [if_neg h128]
          right
          refine ⟨[], c :: s, rfl, rfl, .stop _ _ (by rw [starts_cons]; exact hc) ?_⟩
          rw [NoUni, starts_cons]; intro h; exact absurd h h128

theorem readIdent_stop (fuel : Nat) (first : Bool) (rest tail : List Nat)
    (h1 : ¬ StartsWith IsIdAscii rest) (h2 : NoUni first rest) :
    readIdent false (fuel + 1) first (rest ++ 0 :: tail) = .ok (rest ++ 0 :: tail) := by
  cases rest with
  | nil => simp [readIdent, isAlnum, isDigit]
  | cons c s =>
    rw [starts_cons] at h1
    have hc' := h1
    rw [idAscii_iff] at hc'
    simp only [List.cons_append, readIdent]
    rw [if_neg (by simp at hc'; exact hc'.1), if_neg (fun h => hc' (Or.inr h))]
    split
    · rename_i h128
      obtain ⟨u, bs, r, hb, hl, hid⟩ := h2 (by rw [starts_cons]; exact h128)
      have : decodeUtf8 (c :: (s ++ 0 :: tail)) = .ok (u, r ++ 0 :: tail) := by
        rw [decode_iff]
        refine ⟨bs, ?_, hl⟩
        rw [← List.cons_append, hb]; simp
      rw [this]
      simp only
      rw [if_neg (fun h => hid ((ident_uni _ _).1 h))]
    · rfl

theorem readIdent_complete (tail : List Nat) (first : Bool) (x rest : List Nat)
    (h : IdentRun first x rest) : ∀ (fuel : Nat), x.length < fuel →
    readIdent false fuel first (x ++ rest ++ 0 :: tail) = .ok (rest ++ 0 :: tail) := by
  induction h with
  | stop first rest h1 h2 =>
    intro fuel hf
    cases fuel with
    | zero => simp at hf
    | succ f => exact readIdent_stop f first rest tail h1 h2
  | ascii first c x rest hc _ ih =>
    intro fuel hf
    cases fuel with
    | zero => simp at hf
    | succ f =>
      have := ih f (by simp at hf; omega)
      rw [idAscii_iff] at hc
      simp only [List.cons_append, readIdent]
      by_cases h36 : c = 36
      · simp only [h36, if_true]; simpa using this
      · rw [if_neg h36, if_pos (by simpa [h36] using hc)]; simpa using this
  | uni first c bs x rest hl hlen hid _ ih =>
    intro fuel hf
    cases fuel with
    | zero => simp at hf
    | succ f =>
      have hx := ih f (by simp at hf; omega)
      rcases loose_high hl with ⟨hb, _⟩ | ⟨_, hhigh⟩
      · rw [hb] at hlen; simp at hlen
      · cases bs with
        | nil => simp at hlen
        | cons b bs =>
          have hb := hhigh b (by simp)
          have hd : decodeUtf8 (b :: (bs ++ (x ++ (rest ++ 0 :: tail)))) = .ok (c, x ++ (rest ++ 0 :: tail)) := by
            rw [decode_iff]; exact ⟨b :: bs, by simp, hl⟩
          have hna : ¬ IsIdAscii b := by intro h; have := idAscii_lt h; omega
          rw [idAscii_iff] at hna
          simp only [List.cons_append, List.append_assoc, readIdent]
          rw [if_neg (by simp at hna; exact hna.1), if_neg (fun h => hna (Or.inr h)), if_pos hb, hd]
          simp only
          rw [if_pos ((ident_uni _ _).2 hid)]
          simpa using hx

end Slimcc.Lex
