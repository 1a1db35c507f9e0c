import Verif.Props.C29
/-!
C13: string escapes decode as specified, and quoting round-trips.
-/
set_option autoImplicit false
namespace Slimcc.Props
open Slimcc Slimcc.Lex Slimcc.PP Slimcc.Spec

/-- After a backslash, the escape reader takes exactly an escape sequence of the grammar `Esc`
(Spec/Lex: simple, octal with at most three digits, hexadecimal with any number of digits modulo
2^32) and returns its value; it fails only for `\x` without digits. -/
theorem C13_escape_iff (s tail : List Nat) (hs : s ≠ []) (v : Nat) (r : List Nat) :
    readEscapedChar (s ++ 0 :: tail) = .ok (v, r) ↔
      ∃ x s', s = x ++ s' ∧ r = s' ++ 0 :: tail ∧ Esc v x s' := by
  constructor
  · intro h
    rcases esc_sound s tail hs with he | ⟨v', x, s', h1, h2, h3⟩
    · rw [he] at h; cases h
    · rw [h2] at h; cases h; exact ⟨x, s', h1, rfl, h3⟩
  · rintro ⟨x, s', rfl, rfl, h⟩
    rw [List.append_assoc]
    refine esc_complete v x s' _ h ?_
    cases s' with
    | nil => exact ⟨0, tail, rfl, Or.inl ⟨rfl, rfl⟩⟩
    | cons b q => exact ⟨b, q ++ 0 :: tail, rfl, Or.inr ⟨q, rfl⟩⟩

/-- Octal escapes: one to three digits, most significant first. -/
theorem C13_octal (ds rest : List Nat) (h1 : ds ≠ []) (h2 : ds.length ≤ 3) (h3 : ∀ d ∈ ds, IsOctal d)
    (h4 : ds.length = 3 ∨ ¬ StartsWith IsOctal rest) (tail : List Nat) :
    readEscapedChar (ds ++ rest ++ 0 :: tail) =
      .ok (ds.foldl (fun v d => v * 8 + (d - 48)) 0, rest ++ 0 :: tail) := by
  refine (C13_escape_iff (ds ++ rest) tail (by simp [h1]) _ _).2 ⟨ds, rest, rfl, rfl, ?_⟩
  rcases ds with _ | ⟨a, _ | ⟨b, _ | ⟨c, _ | ⟨d, ds⟩⟩⟩⟩
  · exact absurd rfl h1
  · have := Esc.oct1 a rest (h3 a (by simp)) (by simpa using h4)
    simpa using this
  · have := Esc.oct2 a b rest (h3 a (by simp)) (h3 b (by simp)) (by simpa using h4)
    simpa using this
  · have := Esc.oct3 a b c rest (h3 a (by simp)) (h3 b (by simp)) (h3 c (by simp))
    have e : [a, b, c].foldl (fun v d => v * 8 + (d - 48)) 0 = (a - 48) * 64 + (b - 48) * 8 + (c - 48) := by
      simp only [List.foldl_cons, List.foldl_nil]; omega
    rw [e]; exact this
  · simp at h2

/-- Hexadecimal escapes: all the digits that follow, modulo 2^32. -/
theorem C13_hex (ds rest : List Nat) (h1 : ds ≠ []) (h3 : ∀ d ∈ ds, IsHex d) (h4 : ¬ StartsWith IsHex rest)
    (tail : List Nat) :
    readEscapedChar (120 :: ds ++ rest ++ 0 :: tail) = .ok (hexValue ds % 2 ^ 32, rest ++ 0 :: tail) :=
  (C13_escape_iff (120 :: ds ++ rest) tail (by simp) _ _).2 ⟨120 :: ds, rest, rfl, rfl, .hex ds rest h1 h3 h4⟩

/-- The single-character escapes. -/
theorem C13_simple (b v : Nat) (h : (b, v) ∈ simpleEscapes) (rest tail : List Nat) :
    readEscapedChar (b :: rest ++ 0 :: tail) = .ok (v, rest ++ 0 :: tail) :=
  (C13_escape_iff (b :: rest) tail (by simp) _ _).2 ⟨[b], rest, rfl, rfl, .simple b v rest h⟩

/-- `\\`, `\"`, `\'` and `\?` stand for themselves. -/
theorem C13_self (b : Nat) (h : b = 92 ∨ b = 34 ∨ b = 39 ∨ b = 63) (rest tail : List Nat) :
    readEscapedChar (b :: rest ++ 0 :: tail) = .ok (b, rest ++ 0 :: tail) := by
  have hlt : b < 128 := by omega
  have hns : ∀ v, (b, v) ∉ simpleEscapes := by
    intro v hv
    have e : simpleEscapes = [(97, 7), (98, 8), (116, 9), (110, 10), (118, 11), (102, 12), (114, 13), (101, 27)] := by decide
    rw [e] at hv; simp at hv; omega
  have := Esc.self b rest (by unfold IsOctal; omega) (by omega) hns
  rw [if_pos hlt] at this
  exact (C13_escape_iff (b :: rest) tail (by simp) _ _).2 ⟨[b], rest, rfl, rfl, this⟩

/-- `\x` without a digit is an error, the only one. -/
theorem C13_error_iff (s tail : List Nat) (hs : s ≠ []) :
    readEscapedChar (s ++ 0 :: tail) = .error ↔ ∃ r, s = 120 :: r ∧ ¬ StartsWith IsHex r := by
  constructor
  · intro h
    cases s with
    | nil => exact absurd rfl hs
    | cons b s =>
      simp only [List.cons_append, readEscapedChar] at h
      by_cases ho : isOctal b = true
      · rw [if_pos ho] at h
        exfalso
        cases hsd : s ++ 0 :: tail with
        | nil => simp at hsd
        | cons b2 p2 =>
          rw [hsd] at h
          simp only at h
          split at h
          · cases p2 with
            | nil => cases h
            | cons b3 p3 => simp only at h; split at h <;> cases h
          · cases h
      · rw [if_neg ho] at h
        by_cases hx : b = 120
        · refine ⟨s, by rw [hx], ?_⟩
          rw [if_pos hx] at h
          cases s with
          | nil => rintro ⟨_, _, h, _⟩; cases h
          | cons d s =>
            rw [starts_cons, ← isXdigit_iff]
            simp only [List.cons_append] at h
            intro hd
            rw [hd] at h
            simp only [Bool.not_true, Bool.false_eq_true, if_false] at h
            have hsnd : ∀ (p : List Nat) (c : Nat), hexLoop p c ≠ .error := by
              intro p
              induction p with
              | nil => intro c; simp [hexLoop]
              | cons a p ih => intro c; rw [hexLoop]; split <;> first | exact ih _ | simp
            exact hsnd _ _ h
        · rw [if_neg hx] at h; cases h
  · rintro ⟨r, rfl, h⟩
    cases r with
    | nil => rfl
    | cons d r =>
      rw [starts_cons, ← isXdigit_iff] at h
      have h' : Source.isXdigit d = false := by simpa using h
      have ho : isOctal 120 = false := by decide
      simp [readEscapedChar, h', ho]

/-- Escaping is undone by reading the literal. -/
theorem escaped_body : ∀ (t : List Nat), (∀ b ∈ t, b < 256 ∧ b ≠ 0 ∧ b ≠ 10) → StrBody .narrow (escaped t) t
  | [], _ => .nil
  | b :: t, h => by
    have ih := escaped_body t (fun b hb => h b (by simp [hb]))
    have hb := h b (by simp)
    have hc : escaped (b :: t) = (if b = 92 ∨ b = 34 then [92, b] else [b]) ++ escaped t := by
      unfold escaped; rw [List.flatMap_cons]
    rw [hc]
    by_cases hq : b = 92 ∨ b = 34
    · rw [if_pos hq]
      have hlt : b < 128 := by omega
      have hns : ∀ v, (b, v) ∉ simpleEscapes := by
        intro v hv
        have e : simpleEscapes = [(97, 7), (98, 8), (116, 9), (110, 10), (118, 11), (102, 12), (114, 13), (101, 27)] := by decide
        rw [e] at hv; simp at hv; omega
      have he := Esc.self b (escaped t ++ [34]) (by unfold IsOctal; omega) (by omega) hns
      rw [if_pos hlt] at he
      have := StrBody.esc (e := .narrow) b [b] (escaped t) t he ih
      have hm : b % 2 ^ elemBits .narrow = b := by rw [show elemBits .narrow = 8 from rfl]; omega
      rw [hm] at this
      exact this
    · rw [if_neg hq]
      exact StrBody.chr (e := .narrow) [b] [b] (escaped t) t ⟨b, rfl, by rw [Nat.mod_eq_of_lt hb.1]⟩
        (by rintro ⟨b', r, hb', hp⟩; simp at hb'; omega) ih

theorem escaped_mem {b : Nat} {t : List Nat} (h : b ∈ escaped t) : b ∈ t ∨ b = 92 := by
  unfold escaped at h
  rw [List.mem_flatMap] at h
  obtain ⟨a, ha, hb⟩ := h
  split at hb
  · simp at hb; rcases hb with rfl | rfl
    · exact Or.inr rfl
    · exact Or.inl ha
  · simp at hb; subst hb; exact Or.inl ha

/-- Quoting an escaped text makes one string literal whose content is the text. -/
theorem C13_quote_escaped (t : List Nat) (h : ∀ b ∈ t, b < 256 ∧ b ≠ 0 ∧ b ≠ 10) :
    ∃ s e, newStrToken (escaped t) = .ok [s, e] ∧ s.kind = .str ∧ s.val = .str .narrow t ∧ e.kind = .eof := by
  have hb := escaped_body t h
  have htt : TokenText .str (.str .narrow t) ([] ++ 34 :: escaped t ++ [34]) [] :=
    .str [] .narrow _ _ [] (by decide) hb
  have hl := Layout.token 0 1 true false _ _ _ _ _ htt (.eof _ _ _ _)
  have hm : ∀ b ∈ ([] ++ 34 :: escaped t ++ [34] ++ [] : List Nat), b < 256 ∧ b ≠ 0 := by
    intro b hb
    simp only [List.nil_append, List.append_nil, List.mem_append, List.mem_cons, List.not_mem_nil, or_false] at hb
    rcases hb with (hb | hb) | hb
    · omega
    · rcases escaped_mem hb with hb | hb
      · exact ⟨(h b hb).1, (h b hb).2.1⟩
      · omega
    · omega
  have := C10_complete _ (fun b hb => (hm b hb).1) (fun b hb => (hm b hb).2) [] _ hl
  have e : quoteString (escaped t) = [] ++ 34 :: escaped t ++ [34] ++ [] ++ 0 :: [] := by
    unfold quoteString; simp
  unfold newStrToken
  rw [e, this]
  exact ⟨_, _, rfl, rfl, rfl, rfl⟩

/-- Text without quotes and backslashes (file names in `__FILE__`, dates) round-trips unescaped. -/
theorem C13_quote_plain (t : List Nat) (h : ∀ b ∈ t, b < 256 ∧ b ≠ 0 ∧ b ≠ 10 ∧ b ≠ 34 ∧ b ≠ 92) :
    ∃ s e, newStrToken t = .ok [s, e] ∧ s.kind = .str ∧ s.val = .str .narrow t ∧ e.kind = .eof := by
  have he : escaped t = t := by
    unfold escaped
    induction t with
    | nil => rfl
    | cons b t ih =>
      rw [List.flatMap_cons, ih (fun b hb => h b (by simp [hb]))]
      have := h b (by simp)
      rw [if_neg (by omega)]; rfl
  rw [← he]
  have := C13_quote_escaped t (fun b hb => ⟨(h b hb).1, (h b hb).2.1, (h b hb).2.2.1⟩)
  rw [he] at this ⊢; exact this

theorem escaped_append (a b : List Nat) : escaped (a ++ b) = escaped a ++ escaped b := by
  unfold escaped; rw [List.flatMap_append]

theorem escaped_plain (t : List Nat) (h : ∀ b ∈ t, b ≠ 34 ∧ b ≠ 92) : escaped t = t := by
  unfold escaped
  induction t with
  | nil => rfl
  | cons b t ih =>
    rw [List.flatMap_cons, ih (fun b hb => h b (by simp [hb]))]
    have := h b (by simp)
    rw [if_neg (by omega)]; rfl

/-- Tokens other than string and character literals normally contain no quote or backslash. -/
def StringizeOk (t : PTok) : Prop :=
  t.text ≠ [] ∧ (∀ b ∈ t.text, b < 256 ∧ b ≠ 0 ∧ b ≠ 10) ∧ (¬ isLiteral t → ∀ b ∈ t.text, b ≠ 34 ∧ b ≠ 92)

theorem tokSpelling_escaped (t : PTok) (h : StringizeOk t) : tokSpelling true t = escaped t.text := by
  unfold tokSpelling
  by_cases hl : isLiteral t
  · rw [if_pos ⟨rfl, hl⟩]
  · rw [if_neg (fun e => hl e.2), escaped_plain _ (h.2.2 hl)]

theorem spelling_escaped (ts : List PTok) (h : ∀ t ∈ ts, StringizeOk t) :
    spelling (tokSpelling true) ts = escaped (spelling PTok.text ts) := by
  have hrest : ∀ ts : List PTok, (∀ t ∈ ts, StringizeOk t) →
      restSpelling (tokSpelling true) ts = escaped (restSpelling PTok.text ts) := by
    intro ts
    induction ts with
    | nil => intro _; rfl
    | cons t ts ih =>
      intro h
      rw [restSpelling_cons, restSpelling_cons, escaped_append, escaped_append, ih (fun t ht => h t (by simp [ht])),
        tokSpelling_escaped t (h t (by simp))]
      congr 2
      split <;> rfl
  cases ts with
  | nil => rfl
  | cons t ts =>
    have e1 : spelling (tokSpelling true) (t :: ts) = tokSpelling true t ++ restSpelling (tokSpelling true) ts := rfl
    have e2 : spelling PTok.text (t :: ts) = t.text ++ restSpelling PTok.text ts := rfl
    rw [e1, e2, escaped_append, hrest ts (fun t ht => h t (by simp [ht])), tokSpelling_escaped t (h t (by simp))]

theorem cstr_nul (t tail : List Nat) (h : ∀ b ∈ t, b ≠ 0) : Source.cstr (t ++ 0 :: tail) = t := by
  induction t with
  | nil => simp [Source.cstr]
  | cons b t ih =>
    have hb := h b (by simp)
    have := ih (fun b hb => h b (by simp [hb]))
    simp only [Source.cstr, List.cons_append] at this ⊢
    rw [List.takeWhile_cons_of_pos (by simpa using hb), this]

/-- C13 (stringizing): the `#` operator on any argument (placemarkers aside) gives one string
literal whose content is the spelling of the argument. -/
theorem C13_stringize (ts : List PTok) (h : ∀ t ∈ ts, t.kind ≠ .pmark → StringizeOk t)
    (hmax : (escaped (spelling PTok.text (ts.filter (fun t => t.kind != .pmark)))).length < INT_MAX) :
    ∃ s e, stringize ts = .ok [s, e] ∧ s.kind = .str ∧
      s.val = .str .narrow (spelling PTok.text (ts.filter (fun t => t.kind != .pmark))) ∧ e.kind = .eof := by
  generalize hf : ts.filter (fun t => t.kind != .pmark) = fs at hmax
  have hok : ∀ t ∈ fs, StringizeOk t := by
    intro t ht
    rw [← hf, List.mem_filter] at ht
    exact h t ht.1 (by simpa using ht.2)
  have hsp := spelling_escaped fs hok
  have hj := C29_join true fs (fun t ht => (hok t ht).1) (by rw [hsp]; exact hmax)
  have hbytes : ∀ b ∈ spelling PTok.text fs, b < 256 ∧ b ≠ 0 ∧ b ≠ 10 := by
    intro b hb
    cases fs with
    | nil => simp [spelling] at hb
    | cons t fs =>
      simp only [spelling, List.mem_append, List.mem_flatMap] at hb
      rcases hb with hb | ⟨u, hu, hb | hb⟩
      · exact (hok t (by simp)).2.1 b hb
      · split at hb
        · simp at hb; omega
        · simp at hb
      · exact (hok u (by simp [hu])).2.1 b hb
  have hnz : ∀ b ∈ escaped (spelling PTok.text fs), b ≠ 0 := by
    intro b hb
    rcases escaped_mem hb with hb | hb
    · exact (hbytes b hb).2.1
    · omega
  unfold stringize
  rw [hf, hj, hsp]
  simp only
  rw [cstr_nul _ _ hnz]
  exact C13_quote_escaped _ hbytes

/-- The condition is needed: `#` applied to a lone backslash token does not give a string. -/
theorem C13_stringize_backslash : stringize [⟨.punct, [92], false, false, false⟩] = .error := by decide

/-- A file name with a quote or backslash does not survive `__FILE__` (new_str_token does not
escape it): the name `a\b` comes back as `a`, backspace. -/
theorem C13_file_name_not_escaped :
    ∃ s e, newStrToken [97, 92, 98] = .ok [s, e] ∧ s.val = .str .narrow [97, 8] := ⟨_, _, rfl, rfl⟩

/-- Non-vacuity: `# (x "\n" 'c')`. -/
example : ∃ ts : List PTok, ts.length = 3 ∧ (∀ t ∈ ts, t.kind ≠ .pmark → StringizeOk t) ∧
    ∃ s e, stringize ts = .ok [s, e] ∧
      s.val = .str .narrow [120, 32, 34, 92, 110, 34, 32, 39, 99, 39] := by
  refine ⟨[⟨.ident, [120], false, false, false⟩, ⟨.str, [34, 92, 110, 34], false, true, false⟩,
    ⟨.intNum, [39, 99, 39], false, true, false⟩], rfl, ?_, ?_⟩
  · intro t ht _
    unfold StringizeOk isLiteral
    simp at ht
    rcases ht with rfl | rfl | rfl <;> refine ⟨by simp, ?_, ?_⟩ <;> simp
  · exact ⟨_, _, rfl, rfl⟩

end Slimcc.Props
