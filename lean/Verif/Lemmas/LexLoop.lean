import Verif.Lemmas.LexTok
set_option autoImplicit false
namespace Slimcc.Lex
open Slimcc Slimcc.Source Slimcc.Unicode Slimcc.Spec Slimcc.Props

def zeroLine (t : Tok) : Tok := { t with lineNo := 0 }

theorem tokLoop_nul (total fuel : Nat) (tail : List Nat) (bol sp : Bool) :
    tokLoop false total (fuel + 1) (0 :: tail) bol sp =
      .ok [{ kind := .eof, loc := total - (0 :: tail).length, len := 0, atBol := true, hasSpace := sp,
             val := .none, lineNo := 0 }] := by
  rw [tokLoop, if_pos rfl]

theorem tokLoop_step (total fuel : Nat) (s tail : List Nat) (bol sp : Bool) (hs : s ≠ []) (hz : ∀ b ∈ s, b ≠ 0) :
    tokLoop false total (fuel + 1) (s ++ 0 :: tail) bol sp =
      match step false (s ++ 0 :: tail) with
      | .ok (.newline r) => tokLoop false total fuel r true false
      | .ok (.blank r) => tokLoop false total fuel r bol true
      | .ok (.tok k v r) =>
        match tokLoop false total fuel r false false with
        | .ok ts =>
          .ok ({ kind := k, loc := total - (s ++ 0 :: tail).length, len := (s ++ 0 :: tail).length - r.length,
                 atBol := bol, hasSpace := sp, val := v, lineNo := 0 } :: ts)
        | .error => .error
        | .ub => .ub
      | .error => .error
      | .ub => .ub := by
  cases s with
  | nil => exact absurd rfl hs
  | cons c s => rw [List.cons_append, tokLoop, if_neg (hz c (by simp))]; rfl

theorem layout_white (c : Nat) (hc : c = 32 ∨ c = 9 ∨ c = 11 ∨ c = 12) (s' : List Nat) (ts : List Tok) (line : Nat) (bol : Bool) :
    ∀ (n pos : Nat) (sp : Bool), Layout (pos + (n + 1)) line bol true s' ts →
      Layout pos line bol sp (List.replicate (n + 1) c ++ s') ts
  | 0, pos, sp, h => .white _ _ _ _ c s' ts hc h
  | n + 1, pos, sp, h => by
    refine .white _ _ _ _ c _ ts hc ?_
    have := layout_white c hc s' ts line bol n (pos + 1) true (by rw [show pos + 1 + (n + 1) = pos + (n + 1 + 1) by omega]; exact h)
    exact this

theorem tokLoop_sound (total : Nat) (tail : List Nat) : ∀ (fuel : Nat) (s : List Nat) (pos line : Nat) (bol sp : Bool),
    s.length < fuel → pos + (s ++ 0 :: tail).length = total →
    EndsNL s → (∀ b ∈ s, b < 256) → (∀ b ∈ s, b ≠ 0) →
    tokLoop false total fuel (s ++ 0 :: tail) bol sp = .error ∨
    ∃ ts, Layout pos line bol sp s ts ∧ tokLoop false total fuel (s ++ 0 :: tail) bol sp = .ok (ts.map zeroLine)
  | 0, s, _, _, _, _, h, _, _, _, _ => by omega
  | fuel + 1, s, pos, line, bol, sp, hf, ht, hnl, h256, hz => by
    by_cases hs : s = []
    · subst hs
      right
      refine ⟨_, .eof pos line bol sp, ?_⟩
      rw [List.nil_append, tokLoop_nul]
      simp only [List.nil_append] at ht
      have : total - (0 :: tail).length = pos := by omega
      rw [this]; rfl
    · rw [tokLoop_step total fuel s tail bol sp hs hz]
      have hr := step_sound s tail hs hnl h256 hz
      have sub : ∀ (x s' : List Nat), s = x ++ s' → 0 < x.length → ∀ (line : Nat) (bol sp : Bool),
          tokLoop false total fuel (s' ++ 0 :: tail) bol sp = .error ∨
          ∃ ts, Layout (pos + x.length) line bol sp s' ts ∧
            tokLoop false total fuel (s' ++ 0 :: tail) bol sp = .ok (ts.map zeroLine) := by
        intro x s' hx hl line bol sp
        apply tokLoop_sound
        · rw [hx] at hf; simp at hf; omega
        · rw [hx] at ht; simp at ht ⊢; omega
        · rw [hx] at hnl; exact hnl.suffix
        · intro b hb; exact h256 b (by rw [hx]; simp [hb])
        · intro b hb; exact hz b (by rw [hx]; simp [hb])
      generalize hst : step false (s ++ 0 :: tail) = o at hr
      cases hr with
      | error => exact Or.inl rfl
      | newline s' h =>
        subst h
        rcases sub [10] s' rfl (by simp) (line + 1) true false with h | ⟨ts, h1, h2⟩
        · exact Or.inl h
        · exact Or.inr ⟨ts, .newline _ _ _ _ _ _ h1, h2⟩
      | white c n s' hc h =>
        subst h
        rcases sub (List.replicate (n + 1) c) s' rfl (by simp) line bol true with h | ⟨ts, h1, h2⟩
        · exact Or.inl h
        · rw [List.length_replicate] at h1
          exact Or.inr ⟨ts, layout_white c hc s' ts line bol n pos sp h1, h2⟩
      | line x s' hx h =>
        subst h
        rcases sub (47 :: 47 :: x) (10 :: s') rfl (by simp) line bol true with h | ⟨ts, h1, h2⟩
        · exact Or.inl h
        · exact Or.inr ⟨ts, .lineComment _ _ _ _ _ _ _ hx h1, h2⟩
      | block x s' hx h =>
        subst h
        rcases sub (47 :: 42 :: x ++ [42, 47]) s' rfl (by simp) (line + x.count 10) bol true with h | ⟨ts, h1, h2⟩
        · exact Or.inl h
        · exact Or.inr ⟨ts, .blockComment _ _ _ _ _ _ _ hx h1, h2⟩
      | tok k v x s' hx h =>
        subst h
        have hne := tokenText_ne hx
        rcases sub x s' rfl (List.length_pos_iff.2 hne) (line + x.count 10) false false with h | ⟨ts, h1, h2⟩
        · simp only [h]; exact Or.inl trivial
        · right
          refine ⟨_, .token _ _ _ _ k v x s' ts hx h1, ?_⟩
          simp only [h2, List.map_cons, zeroLine]
          have e1 : total - (x ++ s' ++ 0 :: tail).length = pos := by omega
          have e2 : (x ++ s' ++ 0 :: tail).length - (s' ++ 0 :: tail).length = x.length := by simp
          rw [e1, e2]

theorem skipRun_same (c : Nat) (p : List Nat) : skipRun c (c :: p) = skipRun c p := by simp [skipRun]

theorem tokLoop_complete (total : Nat) (tail : List Nat) {pos line : Nat} {bol sp : Bool} {s : List Nat} {ts : List Tok}
    (h : Layout pos line bol sp s ts) : (∀ b ∈ s, b < 256) → (∀ b ∈ s, b ≠ 0) →
    pos + (s ++ 0 :: tail).length = total → ∀ (fuel : Nat), s.length < fuel →
    tokLoop false total fuel (s ++ 0 :: tail) bol sp = .ok (ts.map zeroLine) := by
  induction h with
  | eof pos line bol sp =>
    intro _ _ ht fuel hf
    cases fuel with
    | zero => omega
    | succ f =>
      rw [List.nil_append, tokLoop_nul]
      simp only [List.nil_append] at ht
      have : total - (0 :: tail).length = pos := by omega
      rw [this]; rfl
  | newline pos line bol sp t ts _ ih =>
    intro h256 hz ht fuel hf
    cases fuel with
    | zero => omega
    | succ f =>
      rw [tokLoop_step _ _ _ _ _ _ (by simp) hz]
      rw [List.cons_append, step, if_pos rfl]
      exact ih (fun b hb => h256 b (by simp [hb])) (fun b hb => hz b (by simp [hb])) (by simp at ht ⊢; omega) f
        (by simp at hf; omega)
  | white pos line bol sp c t ts hc _ ih =>
    intro h256 hz ht fuel hf
    have ih' := ih (fun b hb => h256 b (by simp [hb])) (fun b hb => hz b (by simp [hb])) (by simp at ht ⊢; omega)
    cases fuel with
    | zero => omega
    | succ f =>
      have hc10 : c ≠ 10 := by omega
      rw [tokLoop_step _ _ _ _ _ _ (by simp) hz, List.cons_append, step, if_neg hc10, if_pos hc]
      by_cases hd : ∃ t', t = c :: t'
      · obtain ⟨t', rfl⟩ := hd
        have := ih' (f + 1) (by simp at hf ⊢; omega)
        rw [tokLoop_step _ _ _ _ _ _ (by simp) (fun b hb => hz b (by simp [hb])), List.cons_append, step, if_neg hc10, if_pos hc] at this
        rw [List.cons_append, skipRun_same]
        cases hk : skipRun c (t' ++ 0 :: tail) with
        | ok r => rw [hk] at this; exact this
        | error => rw [hk] at this; exact this
        | ub => rw [hk] at this; exact this
      · have : skipRun c (t ++ 0 :: tail) = .ok (t ++ 0 :: tail) := by
          cases t with
          | nil => simp [skipRun]; omega
          | cons d t =>
            have : d ≠ c := fun e => hd ⟨t, by rw [e]⟩
            simp [skipRun, this]
        rw [this]
        exact ih' f (by simp at hf; omega)
  | lineComment pos line bol sp x t ts hx _ ih =>
    intro h256 hz ht fuel hf
    cases fuel with
    | zero => omega
    | succ f =>
      rw [tokLoop_step _ _ _ _ _ _ (by simp) hz]
      have : step false (47 :: 47 :: x ++ 10 :: t ++ 0 :: tail) = .ok (.blank (10 :: t ++ 0 :: tail)) := by
        simp only [List.cons_append, List.append_assoc, step, rd, List.getElem?_cons_zero]
        simp [skipLine_complete (t ++ 0 :: tail) x hx]
      rw [this]
      exact ih (fun b hb => h256 b (by simp at hb ⊢; rcases hb with h | h <;> simp [h]))
        (fun b hb => hz b (by simp at hb ⊢; rcases hb with h | h <;> simp [h])) (by simp at ht ⊢; omega) f
        (by simp at hf ⊢; omega)
  | blockComment pos line bol sp x t ts hx _ ih =>
    intro h256 hz ht fuel hf
    cases fuel with
    | zero => omega
    | succ f =>
      rw [tokLoop_step _ _ _ _ _ _ (by simp) hz]
      have : step false (47 :: 42 :: x ++ [42, 47] ++ t ++ 0 :: tail) = .ok (.blank (t ++ 0 :: tail)) := by
        have hb := skipBlock_complete (t ++ 0 :: tail) x hx (fun b hb => hz b (by simp [hb]))
        simp only [List.cons_append, List.append_assoc, step, rd, List.getElem?_cons_zero, List.nil_append]
        simp [hb]
      rw [this]
      exact ih (fun b hb => h256 b (by simp [hb])) (fun b hb => hz b (by simp [hb])) (by simp at ht ⊢; omega) f
        (by simp at hf ⊢; omega)
  | token pos line bol sp k v x t ts hx _ ih =>
    intro h256 hz ht fuel hf
    have hne := tokenText_ne hx
    have hpos := List.length_pos_iff.2 hne
    cases fuel with
    | zero => omega
    | succ f =>
      rw [tokLoop_step _ _ _ _ _ _ (by simp [hne]) hz, step_complete tail hx (fun b hb => h256 b (by simp [hb])) hz]
      have := ih (fun b hb => h256 b (by simp [hb])) (fun b hb => hz b (by simp [hb])) (by simp at ht ⊢; omega) f
        (by simp at hf ⊢; omega)
      simp only [this, List.map_cons, zeroLine]
      have e1 : total - (x ++ t ++ 0 :: tail).length = pos := by omega
      have e2 : (x ++ t ++ 0 :: tail).length - (t ++ 0 :: tail).length = x.length := by simp
      rw [e1, e2]

theorem addLines_skip (p : List Nat) (t : Tok) (ts : List Tok) : ∀ (x : List Nat) (i n : Nat), (∀ b ∈ x, b ≠ 0) →
    i + x.length ≤ t.loc →
    addLines (x ++ p) i n (t :: ts) = addLines p (i + x.length) (n + x.count 10) (t :: ts)
  | [], i, n, _, _ => by simp
  | c :: x, i, n, hz, hl => by
    have hne : t.loc ≠ i := by simp at hl; omega
    have ih := addLines_skip p t ts x (i + 1) (if c = 10 then n + 1 else n) (fun b hb => hz b (by simp [hb])) (by simp at hl ⊢; omega)
    rw [List.cons_append, addLines]
    simp only [hne, if_false, hz c (by simp)]
    rw [ih, List.length_cons, List.count_cons]
    have e1 : i + 1 + x.length = i + (x.length + 1) := by omega
    have e2 : (if c = 10 then n + 1 else n) + x.count 10 = n + (x.count 10 + if (c == 10) = true then 1 else 0) := by
      by_cases h : c = 10
      · simp [h]; omega
      · simp [h]
    rw [e1, e2]
    cases addLines p (i + (x.length + 1)) (n + (x.count 10 + if (c == 10) = true then 1 else 0)) (t :: ts) <;> rfl

theorem layout_head {pos line : Nat} {bol sp : Bool} {s : List Nat} {ts : List Tok}
    (h : Layout pos line bol sp s ts) : ∃ t ts', ts = t :: ts' ∧ pos ≤ t.loc := by
  induction h with
  | eof => exact ⟨_, _, rfl, Nat.le_refl _⟩
  | newline _ _ _ _ _ _ _ ih => obtain ⟨t, ts', rfl, h⟩ := ih; exact ⟨t, ts', rfl, by omega⟩
  | white _ _ _ _ _ _ _ _ _ ih => obtain ⟨t, ts', rfl, h⟩ := ih; exact ⟨t, ts', rfl, by omega⟩
  | lineComment _ _ _ _ _ _ _ _ _ ih => obtain ⟨t, ts', rfl, h⟩ := ih; exact ⟨t, ts', rfl, by omega⟩
  | blockComment _ _ _ _ _ _ _ _ _ ih => obtain ⟨t, ts', rfl, h⟩ := ih; exact ⟨t, ts', rfl, by omega⟩
  | token => exact ⟨_, _, rfl, Nat.le_refl _⟩

/-- Skipping blank text in front of a non-empty token list. -/
theorem addLines_skip' (p x : List Nat) (ts : List Tok) (i n : Nat) (hz : ∀ b ∈ x, b ≠ 0)
    (h : ∃ t ts', ts = t :: ts' ∧ i + x.length ≤ t.loc) :
    addLines (x ++ p) i n (ts.map zeroLine) = addLines p (i + x.length) (n + x.count 10) (ts.map zeroLine) := by
  obtain ⟨t, ts', rfl, h⟩ := h
  exact addLines_skip p (zeroLine t) (ts'.map zeroLine) x i n hz h

theorem addLines_layout (tail : List Nat) {pos line : Nat} {bol sp : Bool} {s : List Nat} {ts : List Tok}
    (h : Layout pos line bol sp s ts) : (∀ b ∈ s, b ≠ 0) →
    addLines (s ++ 0 :: tail) pos line (ts.map zeroLine) = .ok ts := by
  induction h with
  | eof pos line bol sp => intro _; simp [addLines, zeroLine]
  | newline pos line bol sp t ts h ih =>
    intro hz
    have := addLines_skip' (t ++ 0 :: tail) [10] ts pos line (by simp) (layout_head h)
    simp at this
    rw [List.cons_append, this]; exact ih (fun b hb => hz b (by simp [hb]))
  | white pos line bol sp c t ts hc h ih =>
    intro hz
    have := addLines_skip' (t ++ 0 :: tail) [c] ts pos line (by simp; omega) (layout_head h)
    have hc10 : c ≠ 10 := by omega
    simp [List.count_cons, hc10] at this
    rw [List.cons_append, this]; exact ih (fun b hb => hz b (by simp [hb]))
  | lineComment pos line bol sp x t ts hx h ih =>
    intro hz
    have := addLines_skip' (10 :: t ++ 0 :: tail) (47 :: 47 :: x) ts pos line (fun b hb => hz b (by simp at hb ⊢; rcases hb with h | h <;> simp [h])) (layout_head h)
    rw [List.append_assoc, this]
    have hc : (47 :: 47 :: x).count 10 = 0 := by rw [List.count_eq_zero]; simp [hx]
    rw [hc]
    exact ih (fun b hb => hz b (by simp at hb ⊢; rcases hb with h | h <;> simp [h]))
  | blockComment pos line bol sp x t ts hx h ih =>
    intro hz
    have := addLines_skip' (t ++ 0 :: tail) (47 :: 42 :: x ++ [42, 47]) ts pos line (fun b hb => hz b (by simp at hb ⊢; rcases hb with h | h | h | h | h <;> simp [h])) (layout_head h)
    rw [List.append_assoc, this]
    have hc : (47 :: 42 :: x ++ [42, 47]).count 10 = x.count 10 := by simp [List.count_append, List.count_cons]
    rw [hc]
    exact ih (fun b hb => hz b (by simp [hb]))
  | token pos line bol sp k v x t ts hx h ih =>
    intro hz
    have hne := tokenText_ne hx
    cases x with
    | nil => exact absurd rfl hne
    | cons c x =>
      have := addLines_skip' (t ++ 0 :: tail) x ts (pos + 1) (if c = 10 then line + 1 else line) (fun b hb => hz b (by simp [hb]))
        (by have := layout_head h; rw [List.length_cons] at this; obtain ⟨t, ts', h1, h2⟩ := this; exact ⟨t, ts', h1, by omega⟩)
      have ih' := ih (fun b hb => hz b (by simp [hb]))
      have e1 : pos + 1 + x.length = pos + (c :: x).length := by simp; omega
      have e2 : (if c = 10 then line + 1 else line) + x.count 10 = line + (c :: x).count 10 := by
        rw [List.count_cons]
        by_cases h : c = 10
        · simp [h]; omega
        · simp [h]
      rw [e1, e2, ih'] at this
      rw [List.cons_append, List.cons_append, List.map_cons, addLines]
      simp only [zeroLine, if_true, hz c (by simp), if_false, List.append_assoc]
      rw [this]

/-- The tokenizer against the specification. -/
theorem tokenize_spec (s tail : List Nat) (hnl : EndsNL s) (h256 : ∀ b ∈ s, b < 256) (hz : ∀ b ∈ s, b ≠ 0) :
    (tokenize false (s ++ 0 :: tail) = .error ∨ ∃ ts, tokenize false (s ++ 0 :: tail) = .ok ts) ∧
    ∀ ts, tokenize false (s ++ 0 :: tail) = .ok ts ↔ Layout 0 1 true false s ts := by
  have comp : ∀ ts, Layout 0 1 true false s ts → tokenize false (s ++ 0 :: tail) = .ok ts := by
    intro ts h
    unfold tokenize
    rw [tokLoop_complete (s ++ 0 :: tail).length tail h h256 hz (by simp) _ (by simp; omega)]
    exact addLines_layout tail h hz
  rcases tokLoop_sound (s ++ 0 :: tail).length tail ((s ++ 0 :: tail).length + 1) s 0 1 true false (by simp; omega) (by simp) hnl h256 hz with h | ⟨ts, h1, h2⟩
  · have he : tokenize false (s ++ 0 :: tail) = .error := by unfold tokenize; rw [h]
    refine ⟨Or.inl he, fun ts => ⟨fun h => ?_, comp ts⟩⟩
    rw [he] at h; cases h
  · have he := comp ts h1
    refine ⟨Or.inr ⟨ts, he⟩, fun ts' => ⟨fun h => ?_, comp ts'⟩⟩
    rw [he] at h; cases h; exact h1

end Slimcc.Lex
