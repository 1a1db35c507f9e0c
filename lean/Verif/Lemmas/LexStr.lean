import Verif.Lemmas.LexNum
set_option autoImplicit false
namespace Slimcc.Lex
open Slimcc Slimcc.Source Slimcc.Unicode Slimcc.Spec Slimcc.Props

theorem fromHex_eq {b : Nat} (h : IsHex b) : fromHex b = hexDigit b := by
  unfold IsHex IsDigit at h; unfold fromHex hexDigit
  rcases h with h | h | h
  · rw [if_pos h, if_pos h.2]
  · rw [if_neg (by omega), if_pos h, if_neg (by omega), if_neg (by omega)]; omega
  · rw [if_neg (by omega), if_neg (by omega), if_neg (by omega), if_pos (by omega)]; omega

theorem hex_step (c b : Nat) (h : IsHex b) :
    (((c % 2 ^ 32) <<< 4) + fromHex b) % 2 ^ 32 = (c * 16 + hexDigit b) % 2 ^ 32 := by
  rw [fromHex_eq h, Nat.shiftLeft_eq]; omega

theorem hexLoop_sound (tail : List Nat) : ∀ (s : List Nat) (c : Nat),
    ∃ ds s', s = ds ++ s' ∧ (∀ d ∈ ds, IsHex d) ∧ ¬ StartsWith IsHex s' ∧
      hexLoop (s ++ 0 :: tail) (c % 2 ^ 32) =
        .ok (ds.foldl (fun v d => v * 16 + hexDigit d) c % 2 ^ 32, s' ++ 0 :: tail)
  | [], c => ⟨[], [], rfl, by simp, not_starts_nil _, by
      have : isXdigit 0 = false := by decide
      simp [hexLoop, this]⟩
  | b :: s, c => by
    by_cases hb : IsHex b
    · obtain ⟨ds, s', h1, h2, h3, h4⟩ := hexLoop_sound tail s (c * 16 + hexDigit b)
      refine ⟨b :: ds, s', by rw [h1]; rfl, ?_, h3, ?_⟩
      · intro d hd; simp at hd; rcases hd with rfl | hd
        · exact hb
        · exact h2 d hd
      · rw [List.cons_append, hexLoop, if_pos ((isXdigit_iff b).2 hb), hex_step c b hb, h4]; rfl
    · refine ⟨[], b :: s, rfl, by simp, by rw [starts_cons]; exact hb, ?_⟩
      rw [List.cons_append, hexLoop, if_neg (fun h => hb ((isXdigit_iff b).1 h))]; rfl

theorem hexLoop_complete (r : List Nat) (hr : ∀ b r', r = b :: r' → ¬ IsHex b) (hne : r ≠ []) :
    ∀ (ds : List Nat) (c : Nat), (∀ d ∈ ds, IsHex d) →
      hexLoop (ds ++ r) (c % 2 ^ 32) =
        .ok (ds.foldl (fun v d => v * 16 + hexDigit d) c % 2 ^ 32, r)
  | [], c, _ => by
    cases r with
    | nil => exact absurd rfl hne
    | cons b r =>
      have := hr b r rfl
      simp only [List.nil_append, hexLoop]
      rw [if_neg (fun h => this ((isXdigit_iff b).1 h))]; rfl
  | b :: ds, c, h => by
    have hb := h b (by simp)
    rw [List.cons_append, hexLoop, if_pos ((isXdigit_iff b).2 hb), hex_step c b hb,
      hexLoop_complete r hr hne ds _ (fun d hd => h d (by simp [hd]))]; rfl

theorem simple_of_mem {b v : Nat} (h : (b, v) ∈ simpleEscapes) : simpleEscape b = v ∧ ¬ IsOctal b ∧ b ≠ 120 := by
  have key : ∀ p ∈ simpleEscapes, simpleEscape p.1 = p.2 ∧ ¬ IsOctal p.1 ∧ p.1 ≠ 120 := by
    unfold IsOctal; decide
  exact key (b, v) h

theorem simple_of_not_mem {b : Nat} (h : ∀ v, (b, v) ∉ simpleEscapes) :
    simpleEscape b = if b < 128 then b else 2 ^ 32 - 256 + b := by
  have e : simpleEscapes = [(97, 7), (98, 8), (116, 9), (110, 10), (118, 11), (102, 12), (114, 13), (101, 27)] := by
    decide
  rw [e] at h
  unfold simpleEscape
  rw [if_neg (fun hb => h 7 (by simp [hb])), if_neg (fun hb => h 8 (by simp [hb])),
    if_neg (fun hb => h 9 (by simp [hb])), if_neg (fun hb => h 10 (by simp [hb])),
    if_neg (fun hb => h 11 (by simp [hb])), if_neg (fun hb => h 12 (by simp [hb])),
    if_neg (fun hb => h 13 (by simp [hb])), if_neg (fun hb => h 27 (by simp [hb]))]
  rfl

theorem oct_not {b : Nat} (h : ¬ IsOctal b) : isOctal b = false := by
  cases hb : isOctal b with
  | false => rfl
  | true => exact absurd ((isOctal_iff b).1 hb) h

theorem hex_not {b : Nat} (h : ¬ IsHex b) : isXdigit b = false := by
  cases hb : isXdigit b with
  | false => rfl
  | true => exact absurd ((isXdigit_iff b).1 hb) h

theorem esc_sound (s tail : List Nat) (hs : s ≠ []) :
    readEscapedChar (s ++ 0 :: tail) = .error ∨
    ∃ v x s', s = x ++ s' ∧ readEscapedChar (s ++ 0 :: tail) = .ok (v, s' ++ 0 :: tail) ∧ Esc v x s' := by
  have o0 : isOctal 0 = false := by decide
  have x0 : isXdigit 0 = false := by decide
  cases s with
  | nil => exact absurd rfl hs
  | cons a s =>
    by_cases ha : IsOctal a
    · right
      have ha' := (isOctal_iff a).2 ha
      cases s with
      | nil =>
        refine ⟨a - 48, [a], [], rfl, ?_, .oct1 a _ ha (not_starts_nil _)⟩
        simp [readEscapedChar, ha', o0]
      | cons b s =>
        by_cases hb : IsOctal b
        · have hb' := (isOctal_iff b).2 hb
          cases s with
          | nil =>
            refine ⟨_, [a, b], [], rfl, ?_, .oct2 a b _ ha hb (not_starts_nil _)⟩
            simp [readEscapedChar, ha', hb', o0, Nat.shiftLeft_eq]
          | cons c s =>
            by_cases hc : IsOctal c
            · have hc' := (isOctal_iff c).2 hc
              refine ⟨_, [a, b, c], s, rfl, ?_, .oct3 a b c _ ha hb hc⟩
              simp [readEscapedChar, ha', hb', hc', Nat.shiftLeft_eq]
              omega
            · refine ⟨_, [a, b], c :: s, rfl, ?_, .oct2 a b _ ha hb (by rw [starts_cons]; exact hc)⟩
              simp [readEscapedChar, ha', hb', oct_not hc, Nat.shiftLeft_eq]
        · refine ⟨a - 48, [a], b :: s, rfl, ?_, .oct1 a _ ha (by rw [starts_cons]; exact hb)⟩
          simp [readEscapedChar, ha', oct_not hb]
    · have ha' := oct_not ha
      by_cases hx : a = 120
      · subst hx
        cases s with
        | nil =>
          left
          simp [readEscapedChar, ha', x0]
        | cons b s =>
          by_cases hb : IsHex b
          · right
            have hb' := (isXdigit_iff b).2 hb
            obtain ⟨ds, s', h1, h2, h3, h4⟩ := hexLoop_sound tail (b :: s) 0
            have hds : ds ≠ [] := by
              intro h; subst h; simp at h1; rw [← h1, starts_cons] at h3; exact h3 hb
            refine ⟨hexValue ds % 2 ^ 32, 120 :: ds, s', by rw [h1]; rfl, ?_, .hex ds s' hds h2 h3⟩
            simp only [List.cons_append, readEscapedChar, ha', hb', Bool.not_true]
            exact h4
          · left
            simp [readEscapedChar, ha', hex_not hb]
      · right
        by_cases hm : ∃ v, (a, v) ∈ simpleEscapes
        · obtain ⟨v, hv⟩ := hm
          refine ⟨v, [a], s, rfl, ?_, .simple a v s hv⟩
          simp [readEscapedChar, ha', hx, (simple_of_mem hv).1]
        · have hm' : ∀ v, (a, v) ∉ simpleEscapes := fun v hv => hm ⟨v, hv⟩
          refine ⟨_, [a], s, rfl, ?_, .self a s ha hx hm'⟩
          simp [readEscapedChar, ha', hx, simple_of_not_mem hm']

/-- `r` begins the way `rest` does, or with the NUL if `rest` is empty. -/
theorem esc_complete (v : Nat) (x rest r : List Nat) (h : Esc v x rest)
    (hr : ∃ b r', r = b :: r' ∧ (rest = [] ∧ b = 0 ∨ ∃ q, rest = b :: q)) :
    readEscapedChar (x ++ r) = .ok (v, r) := by
  obtain ⟨b, r', rfl, hb⟩ := hr
  have noct : ¬ StartsWith IsOctal rest → isOctal b = false := by
    intro h; rcases hb with ⟨rfl, rfl⟩ | ⟨q, rfl⟩
    · decide
    · rw [starts_cons] at h; exact oct_not h
  have nhex : ¬ StartsWith IsHex rest → ¬ IsHex b := by
    intro h; rcases hb with ⟨rfl, rfl⟩ | ⟨q, rfl⟩
    · unfold IsHex IsDigit; omega
    · rw [starts_cons] at h; exact h
  cases h with
  | oct1 a _ ha hn => simp [readEscapedChar, (isOctal_iff a).2 ha, noct hn]
  | oct2 a c _ ha hc hn =>
    simp [readEscapedChar, (isOctal_iff a).2 ha, (isOctal_iff c).2 hc, noct hn, Nat.shiftLeft_eq]
  | oct3 a c d _ ha hc hd =>
    simp [readEscapedChar, (isOctal_iff a).2 ha, (isOctal_iff c).2 hc, (isOctal_iff d).2 hd, Nat.shiftLeft_eq]
    omega
  | hex ds _ hne hds hn =>
    have ho : isOctal 120 = false := by decide
    cases ds with
    | nil => exact absurd rfl hne
    | cons d ds =>
      have hd := (isXdigit_iff d).2 (hds d (by simp))
      have := hexLoop_complete (b :: r') (by intro b' r'' h; cases h; exact nhex hn) (by simp) (d :: ds) 0 hds
      simp only [List.cons_append, readEscapedChar, ho, hd, Bool.not_true] at this ⊢
      exact this
  | simple a v _ hv =>
    obtain ⟨h1, h2, h3⟩ := simple_of_mem hv
    simp [readEscapedChar, oct_not h2, h3, h1]
  | self a _ h1 h2 h3 =>
    simp [readEscapedChar, oct_not h1, h2, simple_of_not_mem h3]

/-- `Esc` depends only on the first byte of what follows. -/
theorem esc_head {v : Nat} {x r r' : List Nat} (h : Esc v x r) (hh : r.head? = r'.head?) : Esc v x r' := by
  have st : ∀ P : Nat → Prop, StartsWith P r ↔ StartsWith P r' := by
    intro P
    cases r <;> cases r' <;> simp_all [starts_cons, not_starts_nil]
  cases h with
  | oct1 a _ ha hn => exact .oct1 a _ ha (by rw [← st]; exact hn)
  | oct2 a c _ ha hc hn => exact .oct2 a c _ ha hc (by rw [← st]; exact hn)
  | oct3 a c d _ ha hc hd => exact .oct3 a c d _ ha hc hd
  | hex ds _ hne hds hn => exact .hex ds _ hne hds (by rw [← st]; exact hn)
  | simple a v _ hv => exact .simple a v _ hv
  | self a _ h1 h2 h3 => exact .self a _ h1 h2 h3

theorem esc_shape {v : Nat} {x r : List Nat} (h : Esc v x r) :
    ∃ b xs, x = b :: xs ∧ ∀ d ∈ xs, IsHex d := by
  have oh : ∀ d, IsOctal d → IsHex d := by intro d h; unfold IsOctal at h; left; unfold IsDigit; omega
  cases h with
  | oct1 a _ _ _ => exact ⟨a, [], rfl, by simp⟩
  | oct2 a c _ _ hc _ => exact ⟨a, [c], rfl, by intro d hd; simp at hd; subst hd; exact oh _ hc⟩
  | oct3 a c d _ _ hc hd => exact ⟨a, [c, d], rfl, by
      intro e he; simp at he; rcases he with rfl | rfl
      · exact oh _ hc
      · exact oh _ hd⟩
  | hex ds _ _ hds _ => exact ⟨120, ds, rfl, hds⟩
  | simple a v _ _ => exact ⟨a, [], rfl, by simp⟩
  | self a _ _ _ _ => exact ⟨a, [], rfl, by simp⟩

theorem sle_cons (c : Nat) (p : List Nat) : stringLiteralEnd (c :: p) =
    if c = 34 then .ok (c :: p)
    else if c = 10 ∨ c = 0 then .error
    else if c = 92 then
      match p with
      | [] => .ub
      | _ :: p' => stringLiteralEnd p'
    else stringLiteralEnd p := by
  rw [stringLiteralEnd.eq_def]; rfl

theorem strLoop_succ (e : StrEnc) (endLen fuel : Nat) (p : List Nat) : strLoop e endLen (fuel + 1) p =
    if p.length ≤ endLen then .ok []
    else
      match p with
      | [] => .ub
      | c :: p1 =>
        match (if c = 92 then
            match readEscapedChar p1 with
            | .ok (v, p') => .ok ([truncElem e v], p')
            | .error => .error
            | .ub => .ub
          else strElems e (c :: p1)) with
        | .ok (us, p') =>
          match strLoop e endLen fuel p' with
          | .ok r => .ok (us ++ r)
          | .error => .error
          | .ub => .ub
        | .error => .error
        | .ub => .ub := by
  rw [strLoop.eq_def]; rfl

/-- Bytes `string_literal_end` steps over one by one. -/
def Plain (b : Nat) : Prop := b ≠ 34 ∧ b ≠ 10 ∧ b ≠ 0 ∧ b ≠ 92

theorem plain_hex {b : Nat} (h : IsHex b) : Plain b := by
  unfold IsHex IsDigit at h; unfold Plain; omega

theorem sle_skip (xs p : List Nat) (h : ∀ b ∈ xs, Plain b) : stringLiteralEnd (xs ++ p) = stringLiteralEnd p := by
  induction xs with
  | nil => rfl
  | cons b xs ih =>
    obtain ⟨h1, h2, h3, h4⟩ := h b (by simp)
    rw [List.cons_append, sle_cons, if_neg h1, if_neg (by omega), if_neg h4]
    exact ih (fun b hb => h b (by simp [hb]))

theorem sle_esc (b : Nat) (p : List Nat) : stringLiteralEnd (92 :: b :: p) = stringLiteralEnd p := by
  rw [sle_cons, if_neg (by decide), if_neg (by decide), if_pos rfl]

theorem sle_len : ∀ (k : Nat) (p fin : List Nat), p.length ≤ k → stringLiteralEnd p = .ok fin → fin.length ≤ p.length := by
  intro k
  induction k with
  | zero => intro p fin h he; have : p = [] := List.length_eq_zero_iff.1 (by omega); subst this; cases he
  | succ k ih =>
    intro p fin hk h
    cases p with
    | nil => cases h
    | cons c p =>
      rw [sle_cons] at h
      split at h
      · cases h; exact Nat.le_refl _
      · split at h
        · cases h
        · split at h
          · cases p with
            | nil => cases h
            | cons d p => have := ih p fin (by simp at hk; omega) h; simp; omega
          · have := ih p fin (by simp at hk; omega) h; simp; omega

/-- The text is empty or ends with a newline. -/
def EndsNL (s : List Nat) : Prop := s = [] ∨ ∃ u, s = u ++ [10]

theorem EndsNL.suffix {x s : List Nat} (h : EndsNL (x ++ s)) : EndsNL s := by
  rcases h with h | ⟨u, h⟩
  · left; simp at h; exact h.2
  · cases hs : s.reverse with
    | nil => left; simpa using hs
    | cons c r =>
      right
      have e : s = r.reverse ++ [c] := by rw [← List.reverse_reverse s, hs]; simp
      rw [e, ← List.append_assoc] at h
      have := List.append_inj_right' h rfl
      refine ⟨r.reverse, by rw [e, this]⟩

theorem sle_sound (tail : List Nat) : ∀ (k : Nat) (s : List Nat), s.length ≤ k → EndsNL s →
    stringLiteralEnd (s ++ 0 :: tail) = .error ∨
    ∃ t s', s = t ++ 34 :: s' ∧ stringLiteralEnd (s ++ 0 :: tail) = .ok (34 :: s' ++ 0 :: tail) := by
  intro k
  induction k with
  | zero =>
    intro s h _
    have : s = [] := List.length_eq_zero_iff.1 (by omega)
    subst this; left; simp [sle_cons]
  | succ k ih =>
    intro s hk hnl
    cases s with
    | nil => left; simp [sle_cons]
    | cons c s =>
      rw [List.cons_append, sle_cons]
      by_cases h34 : c = 34
      · rw [if_pos h34]; right; exact ⟨[], s, by rw [h34]; rfl, by rw [h34]; rfl⟩
      · rw [if_neg h34]
        by_cases h0 : c = 10 ∨ c = 0
        · rw [if_pos h0]; exact Or.inl rfl
        · rw [if_neg h0]
          by_cases h92 : c = 92
          · rw [if_pos h92]
            cases s with
            | nil =>
              rcases hnl with h | ⟨u, h⟩
              · cases h
              · exfalso
                have h1 : [c].getLast? = (u ++ [10]).getLast? := by rw [h]
                simp at h1; omega
            | cons d s =>
              have := ih s (by simp at hk; omega) (EndsNL.suffix (x := [c, d]) (by simpa using hnl))
              rcases this with h | ⟨t, s', h1, h2⟩
              · exact Or.inl h
              · exact Or.inr ⟨c :: d :: t, s', by rw [h1]; rfl, h2⟩
          · rw [if_neg h92]
            have := ih s (by simp at hk; omega) (EndsNL.suffix (x := [c]) (by simpa using hnl))
            rcases this with h | ⟨t, s', h1, h2⟩
            · exact Or.inl h
            · exact Or.inr ⟨c :: t, s', by rw [h1]; rfl, h2⟩

theorem utf16_units (c : Nat) :
    (if c < 0x10000 then [c % 2 ^ 16]
     else [(0xd800 + (((c - 0x10000) >>> 10) &&& 0x3ff)) % 2 ^ 16, (0xdc00 + ((c - 0x10000) &&& 0x3ff)) % 2 ^ 16])
      = looseUtf16 c := by
  unfold looseUtf16
  have e : (0x3ff : Nat) = 2 ^ 10 - 1 := by decide
  split
  · rw [Nat.mod_eq_of_lt (by omega)]
  · rw [e, Nat.and_two_pow_sub_one_eq_mod, Nat.and_two_pow_sub_one_eq_mod, Nat.shiftRight_eq_div_pow]
    have h1 : (0xd800 + (c - 0x10000) / 2 ^ 10 % 2 ^ 10) % 2 ^ 16 = 0xD800 + (c - 0x10000) / 1024 % 1024 := by
      omega
    have h2 : (0xdc00 + (c - 0x10000) % 2 ^ 10) % 2 ^ 16 = 0xDC00 + (c - 0x10000) % 1024 := by omega
    rw [h1, h2]

theorem loose_bound {c : Nat} {bs : List Nat} (h : LooseUtf8 c bs) : (looseUtf16 c).length ≤ bs.length := by
  unfold looseUtf16
  rcases h with ⟨b, rfl, h, rfl⟩ | ⟨a, b, rfl, h1, h2, h3, rfl⟩ | ⟨a, b, d, rfl, h1, h2, h3, h4, rfl⟩ | ⟨a, b, d, e, rfl, h1, h2, h3, h4, rfl⟩
  · rw [if_pos (by omega)]; simp
  · rw [if_pos (by omega)]; simp
  · rw [if_pos (by omega)]; simp
  · split <;> simp

theorem strElems_utf16 (p : List Nat) (c : Nat) (r : List Nat) (h : decodeUtf8 p = .ok (c, r)) :
    strElems .utf16 p = .ok (looseUtf16 c, r) := by
  simp only [strElems, h, ← utf16_units]
  split <;> rfl

theorem strElems_sound (e : StrEnc) (s tail : List Nat) (hs : s ≠ []) :
    strElems e (s ++ 0 :: tail) = .error ∨
    ∃ bs u s', s = bs ++ s' ∧ strElems e (s ++ 0 :: tail) = .ok (u, s' ++ 0 :: tail) ∧ Units e bs u ∧
      u.length ≤ bs.length ∧ (∃ b xs, bs = b :: xs ∧ ∀ d ∈ xs, 128 ≤ d) := by
  have tl : ∀ {c : Nat} {bs : List Nat}, LooseUtf8 c bs → ∃ b xs, bs = b :: xs ∧ ∀ d ∈ xs, 128 ≤ d := by
    intro c bs hl
    rcases loose_high hl with ⟨rfl, _⟩ | ⟨h1, h2⟩
    · exact ⟨c, [], rfl, by simp⟩
    · cases bs with
      | nil => simp at h1
      | cons b xs => exact ⟨b, xs, rfl, fun d hd => h2 d (by simp [hd])⟩
  cases e with
  | narrow =>
    cases s with
    | nil => exact absurd rfl hs
    | cons c s => right; exact ⟨[c], [c % 256], s, rfl, rfl, ⟨c, rfl, rfl⟩, by simp, c, [], rfl, by simp⟩
  | utf16 =>
    rcases decode_text s tail hs with h | ⟨c, bs, s', h, hbs, hl⟩
    · left; simp [strElems, h]
    · right
      exact ⟨bs, looseUtf16 c, s', hbs, strElems_utf16 _ _ _ h, ⟨c, hl, rfl⟩, loose_bound hl, tl hl⟩
  | wide =>
    rcases decode_text s tail hs with h | ⟨c, bs, s', h, hbs, hl⟩
    · left; simp [strElems, h]
    · right
      exact ⟨bs, [c], s', hbs, by simp [strElems, h], ⟨c, hl, rfl⟩, by have := loose_pos hl; simp; omega, tl hl⟩
  | utf32 =>
    rcases decode_text s tail hs with h | ⟨c, bs, s', h, hbs, hl⟩
    · left; simp [strElems, h]
    · right
      exact ⟨bs, [c], s', hbs, by simp [strElems, h], ⟨c, hl, rfl⟩, by have := loose_pos hl; simp; omega, tl hl⟩

theorem esc_bound {v : Nat} {x r : List Nat} (hx : Esc v x r) (hb : ∀ b ∈ x, b < 256) : v < 2 ^ 32 := by
  cases hx with
  | oct1 a _ h1 _ => unfold IsOctal at h1; omega
  | oct2 a c _ h1 h2 _ => unfold IsOctal at h1 h2; omega
  | oct3 a c d _ h1 h2 h3 => unfold IsOctal at h1 h2 h3; omega
  | hex ds _ _ _ _ => omega
  | simple a v _ h1 =>
    have key : ∀ p ∈ simpleEscapes, p.2 < 2 ^ 32 := by decide
    exact key (a, v) h1
  | self a _ _ _ _ => have := hb a (by simp); split <;> omega

theorem truncElem_eq (e : StrEnc) (v : Nat) (h : v < 2 ^ 32) : truncElem e v = v % 2 ^ elemBits e := by
  cases e
  · rfl
  · rfl
  · exact (Nat.mod_eq_of_lt h).symm
  · exact (Nat.mod_eq_of_lt h).symm

theorem strLoop_sound (e : StrEnc) (s' tail : List Nat) : ∀ (fuel : Nat) (s : List Nat), s.length < fuel →
    (∀ b ∈ s, b < 256) →
    stringLiteralEnd (s ++ 0 :: tail) = .ok (34 :: s' ++ 0 :: tail) →
    strLoop e (34 :: s' ++ 0 :: tail).length fuel (s ++ 0 :: tail) = .error ∨
    ∃ t us, s = t ++ 34 :: s' ∧ StrBody e t us ∧ us.length ≤ t.length ∧
      strLoop e (34 :: s' ++ 0 :: tail).length fuel (s ++ 0 :: tail) = .ok us := by
  intro fuel
  induction fuel with
  | zero => intro s h; omega
  | succ fuel ih =>
    intro s hf h256 hsle
    cases s with
    | nil => simp [sle_cons] at hsle
    | cons c s =>
      by_cases h34 : c = 34
      · subst h34
        rw [List.cons_append, sle_cons, if_pos rfl] at hsle
        have : s = s' := by
          simp only [Outcome.ok.injEq, List.cons_append, List.cons.injEq, true_and] at hsle
          exact List.append_cancel_right hsle
        subst this
        right
        refine ⟨[], [], rfl, .nil, by simp, ?_⟩
        rw [strLoop_succ, if_pos (Nat.le_refl _)]
      · by_cases h0 : c = 10 ∨ c = 0
        · rw [List.cons_append, sle_cons, if_neg h34, if_pos h0] at hsle; cases hsle
        · -- a step is taken
          have hlt : ¬ (c :: s ++ 0 :: tail).length ≤ (34 :: s' ++ 0 :: tail).length := by
            rw [List.cons_append, sle_cons, if_neg h34, if_neg h0] at hsle
            split at hsle
            · cases hst : s ++ 0 :: tail with
              | nil => simp at hst
              | cons d p =>
                rw [hst] at hsle
                have := sle_len _ p _ (Nat.le_refl _) hsle
                rw [List.cons_append, hst]; simp at this ⊢; omega
            · have := sle_len _ _ _ (Nat.le_refl _) hsle
              simp at this ⊢; omega
          rw [strLoop_succ, if_neg hlt]
          by_cases h92 : c = 92
          · subst h92
            have hs : s ≠ [] := by
              rintro rfl
              rw [List.cons_append, List.nil_append, sle_esc] at hsle
              have := sle_len _ _ _ (Nat.le_refl _) hsle
              simp at this; omega
            simp only [List.cons_append, if_true]
            rcases esc_sound s tail hs with h | ⟨v, x, s2, hx, h, hesc⟩
            · rw [h]; exact Or.inl rfl
            · rw [h]
              obtain ⟨b, xs, rfl, hxs⟩ := esc_shape hesc
              have h2 : stringLiteralEnd (s2 ++ 0 :: tail) = .ok (34 :: s' ++ 0 :: tail) := by
                rw [← hsle, hx]
                simp only [List.cons_append, List.append_assoc]
                rw [sle_esc, sle_skip xs _ (fun b hb => plain_hex (hxs b hb))]
              have hl2 : s2.length < fuel := by
                have := congrArg List.length hx; simp at this hf; omega
              rcases ih s2 hl2 (fun b hb => h256 b (by rw [hx]; simp [hb])) h2 with h3 | ⟨t, us, ht, hb2, hle, h3⟩
              · simp only [List.cons_append] at h3; simp only [h3]; exact Or.inl trivial
              · right
                have hv : v < 2 ^ 32 := esc_bound hesc (fun b' hb' => h256 b' (by rw [hx]; simp at hb' ⊢; rcases hb' with h | h <;> simp [h]))
                refine ⟨92 :: (b :: xs) ++ t, v % 2 ^ elemBits e :: us, by rw [hx, ht]; simp, .esc v _ t us ?_ hb2,
                  by simp; omega, ?_⟩
                · apply esc_head hesc
                  rw [ht]; cases t <;> simp
                · simp only [List.cons_append] at h3
                  simp only [h3, truncElem_eq e v hv]; rfl
          · simp only [List.cons_append, h92, if_false]
            rcases strElems_sound e (c :: s) tail (by simp) with h | ⟨bs, u, s2, hbs, h, hun, hle, b, xs, hbx, hxs⟩
            · rw [List.cons_append] at h; rw [h]; exact Or.inl rfl
            · rw [List.cons_append] at h
              rw [h]
              subst hbx
              simp only [List.cons_append, List.cons.injEq] at hbs
              obtain ⟨hcb, hs⟩ := hbs
              have hpl : ∀ d ∈ b :: xs, Plain d := by
                intro d hd; simp at hd
                rcases hd with rfl | hd
                · unfold Plain; omega
                · have := hxs d hd; unfold Plain; omega
              have h2 : stringLiteralEnd (s2 ++ 0 :: tail) = .ok (34 :: s' ++ 0 :: tail) := by
                rw [← hsle, ← sle_skip (b :: xs) _ hpl, hcb, hs]; simp
              have hl2 : s2.length < fuel := by
                have := congrArg List.length hs; simp at this hf; omega
              rcases ih s2 hl2 (fun b hb => h256 b (by rw [hs]; simp [hb])) h2 with h3 | ⟨t, us, ht, hb2, hle2, h3⟩
              · simp only [List.cons_append] at h3; simp only [h3]; exact Or.inl trivial
              · right
                refine ⟨b :: xs ++ t, u ++ us, by rw [hs, ht, hcb]; simp, .chr _ _ t us hun ?_ hb2, by simp at hle ⊢; omega, ?_⟩
                · rw [starts_cons]; omega
                · simp only [List.cons_append] at h3
                  simp only [h3]

theorem readString_sound (e : StrEnc) (pre : Nat) (s tail : List Nat) (hnl : EndsNL s) (h256 : ∀ b ∈ s, b < 256) :
    readString e pre (s ++ 0 :: tail) = .error ∨
    ∃ t us s', s = t ++ 34 :: s' ∧ StrBody e t us ∧
      readString e pre (s ++ 0 :: tail) = .ok (us, s' ++ 0 :: tail) := by
  unfold readString
  rcases sle_sound tail _ s (Nat.le_refl _) hnl with h | ⟨t0, s', hs, h⟩
  · rw [h]; exact Or.inl rfl
  · rw [h]
    simp only
    rcases strLoop_sound e s' tail ((s ++ 0 :: tail).length + 1) s (by simp; omega) h256 h with h2 | ⟨t, us, ht, hb, hle, h2⟩
    · rw [h2]; exact Or.inl rfl
    · rw [h2]
      right
      refine ⟨t, us, s', ht, hb, ?_⟩
      simp only
      have hn : (s ++ 0 :: tail).length + 1 - (34 :: s' ++ 0 :: tail).length = t.length + 1 := by
        rw [ht]; simp; omega
      rw [hn, if_pos (by cases e <;> simp [strCap] <;> omega)]
      simp

theorem sle_body (e : StrEnc) (r : List Nat) {t us : List Nat} (h : StrBody e t us) (hz : ∀ b ∈ t, b ≠ 0) :
    stringLiteralEnd (t ++ 34 :: r) = .ok (34 :: r) := by
  induction h with
  | nil => simp [sle_cons]
  | esc v x t us hesc _ ih =>
    obtain ⟨b, xs, rfl, hxs⟩ := esc_shape hesc
    simp only [List.cons_append, List.append_assoc]
    rw [sle_esc, sle_skip xs _ (fun b hb => plain_hex (hxs b hb))]
    exact ih (fun b hb => hz b (by simp [hb]))
  | chr bs u t us hun hst _ ih =>
    have ih := ih (fun b hb => hz b (by simp [hb]))
    rw [List.append_assoc, sle_skip, ih]
    have loose : ∀ c, LooseUtf8 c bs → ∀ b ∈ bs, Plain b := by
      intro c hl b hb
      rcases loose_high hl with ⟨rfl, _⟩ | ⟨_, h2⟩
      · simp at hb; subst hb
        rw [starts_cons] at hst
        have := hz b (by simp)
        unfold Plain; omega
      · have := h2 b hb; unfold Plain; omega
    cases e with
    | narrow =>
      obtain ⟨c, rfl, _⟩ := hun
      intro b hb; simp at hb; subst hb
      rw [starts_cons] at hst
      have := hz b (by simp)
      unfold Plain; omega
    | utf16 => obtain ⟨c, hl, _⟩ := hun; exact loose c hl
    | wide => obtain ⟨c, hl, _⟩ := hun; exact loose c hl
    | utf32 => obtain ⟨c, hl, _⟩ := hun; exact loose c hl

theorem units_elems {e : StrEnc} {bs u : List Nat} (h : Units e bs u) (p : List Nat) :
    strElems e (bs ++ p) = .ok (u, p) ∧ bs ≠ [] ∧ u.length ≤ bs.length := by
  have dec : ∀ c, LooseUtf8 c bs → decodeUtf8 (bs ++ p) = .ok (c, p) := fun c hl => (decode_iff _ _ _).2 ⟨bs, rfl, hl⟩
  have ne : ∀ c, LooseUtf8 c bs → bs ≠ [] := fun c hl h => by have := loose_pos hl; simp [h] at this
  cases e with
  | narrow => obtain ⟨b, rfl, rfl⟩ := h; exact ⟨rfl, by simp, by simp⟩
  | utf16 => obtain ⟨c, hl, rfl⟩ := h; exact ⟨strElems_utf16 _ _ _ (dec c hl), ne c hl, loose_bound hl⟩
  | wide => obtain ⟨c, hl, rfl⟩ := h; exact ⟨by simp [strElems, dec c hl], ne c hl, by have := loose_pos hl; simp; omega⟩
  | utf32 => obtain ⟨c, hl, rfl⟩ := h; exact ⟨by simp [strElems, dec c hl], ne c hl, by have := loose_pos hl; simp; omega⟩

theorem strLoop_complete (e : StrEnc) (r : List Nat) {t us : List Nat} (h : StrBody e t us)
    (h256 : ∀ b ∈ t, b < 256) : us.length ≤ t.length ∧ ∀ (fuel : Nat), t.length < fuel →
    strLoop e (34 :: r).length fuel (t ++ 34 :: r) = .ok us := by
  induction h with
  | nil =>
    refine ⟨by simp, ?_⟩
    intro fuel hf
    cases fuel with
    | zero => simp at hf
    | succ f => rw [strLoop_succ, List.nil_append, if_pos (Nat.le_refl _)]
  | esc v x t us hesc _ ih =>
    obtain ⟨ih1, ih2⟩ := ih (fun b hb => h256 b (by simp [hb]))
    refine ⟨by simp; omega, ?_⟩
    intro fuel hf
    cases fuel with
    | zero => simp at hf
    | succ f =>
      have hv : v < 2 ^ 32 := esc_bound hesc (fun b' hb' => h256 b' (by simp [hb']))
      rw [strLoop_succ, if_neg (by simp; omega)]
      simp only [List.cons_append, List.append_assoc, if_true]
      rw [esc_complete v x (t ++ [34]) (t ++ 34 :: r) hesc]
      · simp only
        rw [ih2 f (by simp at hf; omega), truncElem_eq e v hv]; rfl
      · cases t with
        | nil => exact ⟨34, r, rfl, Or.inr ⟨[], rfl⟩⟩
        | cons b t => exact ⟨b, _, rfl, Or.inr ⟨_, rfl⟩⟩
  | chr bs u t us hun hst _ ih =>
    obtain ⟨ih1, ih2⟩ := ih (fun b hb => h256 b (by simp [hb]))
    obtain ⟨h1, h2, h3⟩ := units_elems hun (t ++ 34 :: r)
    refine ⟨by simp; omega, ?_⟩
    intro fuel hf
    cases bs with
    | nil => exact absurd rfl h2
    | cons b bs =>
      cases fuel with
      | zero => simp at hf
      | succ f =>
        rw [starts_cons] at hst
        rw [strLoop_succ, if_neg (by simp; omega)]
        simp only [List.cons_append, List.append_assoc] at h1 ⊢
        rw [if_neg (by omega), h1]
        simp only
        rw [ih2 f (by simp at hf; omega)]

theorem readString_complete (e : StrEnc) (pre : Nat) (r : List Nat) {t us : List Nat} (h : StrBody e t us)
    (hz : ∀ b ∈ t, b ≠ 0) (h256 : ∀ b ∈ t, b < 256) :
    readString e pre (t ++ 34 :: r) = .ok (us, r) := by
  obtain ⟨h1, h2⟩ := strLoop_complete e r h h256
  unfold readString
  rw [sle_body e r h hz]
  simp only
  rw [h2 _ (by simp; omega)]
  simp only
  rw [if_pos (by cases e <;> simp [strCap] <;> omega)]
  rfl

theorem findByte_sound (c : Nat) (tail : List Nat) (hc : c ≠ 0) : ∀ (s : List Nat), (∀ b ∈ s, b ≠ 0) →
    (findByte c (s ++ 0 :: tail) = .ok none ∧ c ∉ s) ∨
    ∃ j s', s = j ++ c :: s' ∧ c ∉ j ∧ findByte c (s ++ 0 :: tail) = .ok (some (c :: s' ++ 0 :: tail))
  | [], _ => by left; simp [findByte, Ne.symm hc]
  | b :: s, hz => by
    by_cases hb : b = c
    · right; exact ⟨[], s, by rw [hb]; rfl, by simp, by simp [findByte, hb]⟩
    · have hb0 := hz b (by simp)
      have e : findByte c (b :: s ++ 0 :: tail) = findByte c (s ++ 0 :: tail) := by
        simp [findByte, hb, hb0]
      rw [e]
      rcases findByte_sound c tail hc s (fun b hb => hz b (by simp [hb])) with ⟨h1, h2⟩ | ⟨j, s', h1, h2, h3⟩
      · left; exact ⟨h1, by simp [h2]; exact fun h => hb h.symm⟩
      · right; exact ⟨b :: j, s', by rw [h1]; rfl, by simp [h2]; exact fun h => hb h.symm, h3⟩

theorem findByte_complete (c : Nat) (r : List Nat) : ∀ (j : List Nat), c ∉ j → (∀ b ∈ j, b ≠ 0) →
    findByte c (j ++ c :: r) = .ok (some (c :: r))
  | [], _, _ => by simp [findByte]
  | b :: j, h, hz => by
    have hb : b ≠ c := fun e => h (by simp [e])
    have hb0 := hz b (by simp)
    simp only [List.cons_append, findByte, hb, if_false, hb0]
    exact findByte_complete c r j (fun e => h (by simp [e])) (fun b hb => hz b (by simp [hb]))

theorem readCharLit_sound (s tail : List Nat) (hnl : EndsNL s) (hz : ∀ b ∈ s, b ≠ 0) :
    readCharLit (s ++ 0 :: tail) = .error ∨
    ∃ v b j s', s = b ++ j ++ 39 :: s' ∧ ChrBody v b (j ++ [39]) ∧ 39 ∉ j ∧
      readCharLit (s ++ 0 :: tail) = .ok (v, s' ++ 0 :: tail) := by
  cases s with
  | nil => left; simp [readCharLit]
  | cons c s =>
    have hc0 := hz c (by simp)
    have fin : ∀ (v : Nat) (b s2 : List Nat), c :: s = b ++ s2 → (∀ r, s2.head? = r.head? → ChrBody v b r) →
        (if c = 92 then readEscapedChar (s ++ 0 :: tail) else decodeUtf8 (c :: (s ++ 0 :: tail))) =
          .ok (v, s2 ++ 0 :: tail) →
        readCharLit (c :: s ++ 0 :: tail) = .error ∨
        ∃ v b j s', c :: s = b ++ j ++ 39 :: s' ∧ ChrBody v b (j ++ [39]) ∧ 39 ∉ j ∧
          readCharLit (c :: s ++ 0 :: tail) = .ok (v, s' ++ 0 :: tail) := by
      intro v b s2 hb hcb hrd
      simp only [List.cons_append, readCharLit, hc0, if_false, hrd]
      have hz2 : ∀ x ∈ s2, x ≠ 0 := fun x hx => hz x (by rw [hb]; simp [hx])
      rcases findByte_sound 39 tail (by decide) s2 hz2 with ⟨h1, _⟩ | ⟨j, s', h1, h2, h3⟩
      · rw [h1]; exact Or.inl rfl
      · rw [h3]; right
        refine ⟨v, b, j, s', by rw [hb, h1]; simp, hcb _ (by rw [h1]; cases j <;> simp), h2, by simp⟩
    by_cases h92 : c = 92
    · have hs : s ≠ [] := by
        rintro rfl
        rcases hnl with h | ⟨u, h⟩
        · cases h
        · have h1 : [c].getLast? = (u ++ [10]).getLast? := by rw [h]
          simp at h1; omega
      rcases esc_sound s tail hs with h | ⟨v, x, s2, hx, h, hesc⟩
      · left
        simp only [List.cons_append, readCharLit, hc0, if_false, h92, if_true, h]
        rfl
      · refine fin v (92 :: x) s2 (by rw [hx, h92]; rfl) (fun r hr => .esc v x r (esc_head hesc hr)) ?_
        rw [if_pos h92, h]
    · rcases decode_text (c :: s) tail (by simp) with h | ⟨u, bs, s2, h, hbs, hl⟩
      · left
        rw [List.cons_append] at h
        simp only [List.cons_append, readCharLit, hc0, if_false, h92, h]
      · refine fin u bs s2 hbs (fun r _ => .chr u bs r hl ?_) ?_
        · intro e; rw [e] at hbs; simp at hbs; exact h92 hbs.1
        · rw [if_neg h92]; rw [List.cons_append] at h; exact h

theorem readCharLit_complete (v : Nat) (b j r : List Nat) (h : ChrBody v b (j ++ [39])) (hj : 39 ∉ j)
    (hz : ∀ x ∈ b ++ j, x ≠ 0) : readCharLit (b ++ j ++ 39 :: r) = .ok (v, r) := by
  have hf := findByte_complete 39 r j hj (fun x hx => hz x (by simp [hx]))
  cases h with
  | esc x _ hesc =>
    simp only [List.cons_append, readCharLit, if_true, List.append_assoc]
    rw [if_neg (by decide), esc_complete v x (j ++ [39]) (j ++ 39 :: r) hesc]
    · simp only; rw [hf]; rfl
    · cases j with
      | nil => exact ⟨39, r, rfl, Or.inr ⟨[], rfl⟩⟩
      | cons b t => exact ⟨b, _, rfl, Or.inr ⟨_, rfl⟩⟩
  | chr _ _ hl hne =>
    have hd : decodeUtf8 (b ++ (j ++ 39 :: r)) = .ok (v, j ++ 39 :: r) := (decode_iff _ _ _).2 ⟨b, rfl, hl⟩
    cases b with
    | nil => have := loose_pos hl; simp at this
    | cons a b =>
      have ha : a ≠ 0 := hz a (by simp)
      have h92 : a ≠ 92 := by
        intro e; subst e
        rcases loose_high hl with ⟨h, _⟩ | ⟨_, h⟩
        · simp at h; exact hne (by rw [h.2])
        · have := h 92 (by simp); omega
      simp only [List.cons_append, List.append_assoc] at hd
      simp only [List.cons_append, List.append_assoc, readCharLit, ha, h92, if_false, hd]
      rw [hf]; rfl

end Slimcc.Lex
