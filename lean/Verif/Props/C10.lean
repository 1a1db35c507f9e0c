import Verif.Lemmas.LexLoop
/-!
C10: tokenisation loses nothing and always terminates.

`tokenize false mem` models `tokenize` (C source mode) on the whole allocation `mem`: reading
outside it, and running out of fuel, are `ub`. The text is `s`, followed by the terminating NUL
and by arbitrary further bytes `tail` of the allocation (the tokenizer works in place on a buffer
that has been shrunk, so there usually are some). `Layout` (Spec/Lex) is the grammar of a token
list; it is a relation and does not mention the tokenizer.
-/
set_option autoImplicit false
namespace Slimcc.Props
open Slimcc Slimcc.Lex Slimcc.Spec

/-- A source text: bytes, no NUL, and empty or ending with a newline. -/
structure SourceText (s : List Nat) : Prop where
  byte : ∀ b ∈ s, b < 256
  nulFree : ∀ b ∈ s, b ≠ 0
  newline : s = [] ∨ ∃ x, s = x ++ [10]

theorem SourceText.endsNL {s : List Nat} (h : SourceText s) : EndsNL s := h.newline

/-- The tokenizer terminates without reading outside the buffer, and never looks at the bytes
behind the terminating NUL: the result is the same whatever they are. -/
theorem C10_in_bounds (s : List Nat) (h : SourceText s) (tail tail' : List Nat) :
    tokenize false (s ++ 0 :: tail) ≠ .ub ∧
    tokenize false (s ++ 0 :: tail) = tokenize false (s ++ 0 :: tail') := by
  obtain ⟨a, b⟩ := tokenize_spec s tail h.endsNL h.byte h.nulFree
  obtain ⟨a', b'⟩ := tokenize_spec s tail' h.endsNL h.byte h.nulFree
  constructor
  · rcases a with a | ⟨ts, a⟩ <;> rw [a] <;> simp
  · rcases a' with a' | ⟨ts, a'⟩
    · rcases a with a | ⟨ts, a⟩
      · rw [a, a']
      · have := (b' ts).2 ((b ts).1 a); rw [a'] at this; cases this
    · rw [a']; exact (b ts).2 ((b' ts).1 a')

/-- The token list is the one of the grammar, and the tokenizer reports an error exactly for the
texts without one. -/
theorem C10_tokens_iff (s : List Nat) (h : SourceText s) (tail : List Nat) (ts : List Tok) :
    tokenize false (s ++ 0 :: tail) = .ok ts ↔ Layout 0 1 true false s ts :=
  (tokenize_spec s tail h.endsNL h.byte h.nulFree).2 ts

/-- Texts that follow the grammar are tokenised as it says also without a final newline (used for
text made by the preprocessor itself). -/
theorem C10_complete (s : List Nat) (h256 : ∀ b ∈ s, b < 256) (hz : ∀ b ∈ s, b ≠ 0) (tail : List Nat) (ts : List Tok)
    (h : Layout 0 1 true false s ts) : tokenize false (s ++ 0 :: tail) = .ok ts := by
  unfold tokenize
  rw [tokLoop_complete (s ++ 0 :: tail).length tail h h256 hz (by simp) _ (by simp; omega)]
  exact addLines_layout tail h hz

theorem C10_error_iff (s : List Nat) (h : SourceText s) (tail : List Nat) :
    tokenize false (s ++ 0 :: tail) = .error ↔ ¬ ∃ ts, Layout 0 1 true false s ts := by
  obtain ⟨a, b⟩ := tokenize_spec s tail h.endsNL h.byte h.nulFree
  constructor
  · rintro he ⟨ts, hl⟩
    have := (b ts).2 hl; rw [he] at this; cases this
  · intro hn
    rcases a with a | ⟨ts, a⟩
    · exact a
    · exact absurd ⟨ts, (b ts).1 a⟩ hn

/-- Every text has at most one token list. -/
theorem C10_deterministic (s : List Nat) (h : SourceText s) (ts ts' : List Tok)
    (h1 : Layout 0 1 true false s ts) (h2 : Layout 0 1 true false s ts') : ts = ts' := by
  have a := (C10_tokens_iff s h [] ts).2 h1
  have b := (C10_tokens_iff s h [] ts').2 h2
  rw [a] at b; cases b; rfl

theorem tokenText_kind {k : Kind} {v : Val} {x r : List Nat} (h : TokenText k v x r) : k ≠ .eof := by
  cases h <;> simp

theorem tokenText_not_nl {k : Kind} {v : Val} {y rest : List Nat} (c : TokenText k v (10 :: y) rest) : False := by
  generalize hyy : (10 :: y) = yy at c
  cases c with
  | num pre d z _ hp hd =>
    unfold IsDigit at hd
    rcases hp with rfl | rfl <;> simp at hyy <;> omega
  | punct _ _ _ hl _ _ =>
    rw [← hyy] at hl
    rcases hl.1 with h0 | ⟨q, hq, hp, hl⟩
    · simp at h0
    · have hall : ∀ q ∈ punctuators, q.head? ≠ some 10 ∧ q ≠ [] := by decide
      have := hall q hq
      cases q with
      | nil => simp at this
      | cons q0 q =>
        rw [List.cons_append, List.cons_prefix_cons] at hp
        rw [hp.1] at this; simp at this
  | str pre e t us _ hp =>
    rcases strPre_cases hp with ⟨rfl, _⟩ | ⟨rfl, _⟩ | ⟨rfl, _⟩ | ⟨rfl, _⟩ | ⟨rfl, _⟩ <;> simp at hyy
  | chr pre e t us _ _ hp =>
    rcases chrPre_cases hp with ⟨rfl, _⟩ | ⟨rfl, _⟩ | ⟨rfl, _⟩ | ⟨rfl, _⟩ <;> simp at hyy
  | ident _ _ _ hr =>
    rw [← hyy] at hr
    generalize hz : (10 :: y) = z at hr
    cases hr with
    | stop => cases hz
    | ascii _ c z _ hc =>
      injection hz with hz1 hz2; subst hz1
      unfold IsIdAscii IsLetter IsDigit at hc; omega
    | uni _ c bs z _ hl h2 =>
      cases bs with
      | nil => simp at h2
      | cons b bs =>
        simp at hz
        rcases loose_high hl with ⟨h3, _⟩ | ⟨_, h3⟩
        · rw [h3] at h2; simp at h2
        · have := h3 b (by simp); omega

/-- A layout begins with a gap, then a token. -/
theorem layout_gap {pos line : Nat} {bol sp : Bool} {s : List Nat} {ts : List Tok}
    (h : Layout pos line bol sp s ts) : ∃ (g w : List Nat) (t : Tok) (ts' : List Tok) (nl sg : Bool),
      Gap nl sg g ∧ s = g ++ w ∧ ts = t :: ts' ∧ t.loc = pos + g.length ∧ t.lineNo = line + g.count 10 ∧
      t.hasSpace = (sg || (!nl && sp)) ∧
      (ts' = [] → w = [] ∧ t.kind = .eof ∧ t.len = 0 ∧ t.atBol = true) ∧
      (ts' ≠ [] → ∃ x rest, w = x ++ rest ∧ t.len = x.length ∧ TokenText t.kind t.val x rest ∧ t.atBol = (bol || nl) ∧
        Layout (pos + g.length + x.length) (line + g.count 10 + x.count 10) false false rest ts') := by
  induction h with
  | eof pos line bol sp =>
    refine ⟨[], [], _, [], false, false, .nil, rfl, rfl, rfl, rfl, by simp, by simp, by simp⟩
  | newline pos line bol sp t ts h ih =>
    obtain ⟨g, w, t, ts', nl, sg, h1, h2, h3, h4, h5, h6, h7, h8⟩ := ih
    refine ⟨10 :: g, w, t, ts', true, sg, .newline _ _ _ h1, by rw [h2]; rfl, h3, by rw [h4]; simp; omega,
      by rw [h5]; simp; omega, by rw [h6]; simp, h7, ?_⟩
    intro hne
    obtain ⟨x, rest, a, b, c, d, e⟩ := h8 hne
    refine ⟨x, rest, a, b, c, by rw [d]; simp, ?_⟩
    have e1 : pos + 1 + g.length + x.length = pos + (10 :: g).length + x.length := by simp; omega
    have e2 : line + 1 + g.count 10 + x.count 10 = line + (10 :: g).count 10 + x.count 10 := by simp; omega
    rw [← e1, ← e2]; exact e
  | white pos line bol sp c t ts hc h ih =>
    obtain ⟨g, w, t, ts', nl, sg, h1, h2, h3, h4, h5, h6, h7, h8⟩ := ih
    have hcnt : (c :: g).count 10 = g.count 10 := by
      rw [List.count_cons_of_ne]; omega
    refine ⟨c :: g, w, t, ts', nl, !nl || sg, .white _ _ _ _ hc h1, by rw [h2]; rfl, h3, by rw [h4]; simp; omega,
      by rw [h5, hcnt], by rw [h6]; cases nl <;> cases sg <;> cases sp <;> rfl, h7, ?_⟩
    intro hne
    obtain ⟨x, rest, a, b, c', d, e⟩ := h8 hne
    refine ⟨x, rest, a, b, c', d, ?_⟩
    have e1 : pos + 1 + g.length + x.length = pos + (c :: g).length + x.length := by simp; omega
    rw [← e1, hcnt]; exact e
  | lineComment pos line bol sp x t ts hx h ih =>
    obtain ⟨g, w, t', ts', nl, sg, h1, h2, h3, h4, h5, h6, h7, h8⟩ := ih
    have hg : ∃ g', g = 10 :: g' := by
      cases g with
      | nil =>
        simp only [List.nil_append] at h2
        exfalso
        by_cases hne : ts' = []
        · have := (h7 hne).1; rw [this] at h2; cases h2
        · obtain ⟨y, rest, a, b, c, d, e⟩ := h8 hne
          rw [a] at h2
          have hy := tokenText_ne c
          cases y with
          | nil => exact hy rfl
          | cons y0 y =>
            simp only [List.cons_append, List.cons.injEq] at h2
            obtain ⟨rfl, -⟩ := h2
            exact tokenText_not_nl c
      | cons g0 g =>
        rw [List.cons_append] at h2
        injection h2 with h2 _
        exact ⟨g, by rw [h2]⟩
    obtain ⟨g', rfl⟩ := hg
    have hcnt : (47 :: 47 :: x ++ 10 :: g').count 10 = (10 :: g').count 10 := by
      rw [List.count_append]
      have : (47 :: 47 :: x).count 10 = 0 := by rw [List.count_eq_zero]; simp [hx]
      omega
    have hnl : nl = true := by
      cases h1 with
      | newline => rfl
      | white _ _ _ _ h => omega
    refine ⟨47 :: 47 :: x ++ 10 :: g', w, t', ts', nl, sg, .lineComment _ _ _ _ hx h1, by rw [h2]; simp, h3,
      by rw [h4]; simp; omega, by rw [h5, hcnt], by rw [h6, hnl]; simp, h7, ?_⟩
    intro hne
    obtain ⟨y, rest, a, b, c', d, e⟩ := h8 hne
    refine ⟨y, rest, a, b, c', d, ?_⟩
    have e1 : pos + (47 :: 47 :: x).length + (10 :: g').length + y.length
        = pos + (47 :: 47 :: x ++ 10 :: g').length + y.length := by simp; omega
    rw [← e1, hcnt]; exact e
  | blockComment pos line bol sp x t ts hx h ih =>
    obtain ⟨g, w, t, ts', nl, sg, h1, h2, h3, h4, h5, h6, h7, h8⟩ := ih
    have hcnt : (47 :: 42 :: x ++ [42, 47] ++ g).count 10 = x.count 10 + g.count 10 := by
      simp [List.count_append, List.count_cons]
    refine ⟨47 :: 42 :: x ++ [42, 47] ++ g, w, t, ts', nl, !nl || sg, .blockComment _ _ _ _ hx h1, by rw [h2]; simp, h3,
      by rw [h4]; simp; omega, by rw [h5, hcnt]; omega, by rw [h6]; cases nl <;> cases sg <;> cases sp <;> rfl, h7, ?_⟩
    intro hne
    obtain ⟨y, rest, a, b, c', d, e⟩ := h8 hne
    refine ⟨y, rest, a, b, c', d, ?_⟩
    have e1 : pos + (47 :: 42 :: x ++ [42, 47]).length + g.length + y.length
        = pos + (47 :: 42 :: x ++ [42, 47] ++ g).length + y.length := by simp; omega
    rw [← e1, hcnt, ← Nat.add_assoc]; exact e
  | token pos line bol sp k v x t ts hx h ih =>
    refine ⟨[], x ++ t, _, ts, false, false, .nil, rfl, rfl, rfl, rfl, by simp, ?_, ?_⟩
    · intro hne; subst hne
      obtain ⟨_, _, h, _⟩ := layout_head h; cases h
    · intro _
      exact ⟨x, t, rfl, rfl, hx, by simp, h⟩

/-- The rest of a layout at any of its tokens. -/
theorem layout_at {s : List Nat} : ∀ (l1 : List Tok) (s0 : List Nat) (pos line : Nat) (bol sp : Bool) (t : Tok) (l2 : List Tok),
    Layout pos line bol sp s0 (l1 ++ t :: l2) → ∃ (u r : List Nat) (bol' sp' : Bool),
      s0 = u ++ r ∧ Layout (pos + u.length) (line + u.count 10) bol' sp' r (t :: l2) ∧
      (l1 = [] → u = [] ∧ bol' = bol ∧ sp' = sp) ∧
      (l1 ≠ [] → bol' = false ∧ sp' = false ∧ pos + u.length = endOf l1)
  | [], s0, pos, line, bol, sp, t, l2, h => ⟨[], s0, bol, sp, rfl, by simpa using h, by simp, by simp⟩
  | a :: l1, s0, pos, line, bol, sp, t, l2, h => by
    obtain ⟨g, w, a', ts', nl, sg, h1, h2, h3, h4, h5, h6, h7, h8⟩ := layout_gap h
    simp only [List.cons_append, List.cons.injEq] at h3
    obtain ⟨rfl, h3⟩ := h3
    obtain ⟨x, rest, hw, hl, htt, hb, hlay⟩ := h8 (by rw [← h3]; simp)
    rw [← h3] at hlay
    obtain ⟨u, r, bol', sp', k1, k2, k3, k4⟩ := layout_at (s := s) l1 rest _ _ false false t l2 hlay
    refine ⟨g ++ x ++ u, r, bol', sp', by rw [h2, hw, k1]; simp, ?_, by simp, ?_⟩
    · have e1 : pos + g.length + x.length + u.length = pos + (g ++ x ++ u).length := by simp; omega
      have e2 : line + g.count 10 + x.count 10 + u.count 10 = line + (g ++ x ++ u).count 10 := by
        simp [List.count_append]; omega
      rw [← e1, ← e2]; exact k2
    · intro _
      by_cases hl1 : l1 = []
      · obtain ⟨e1, e2, e3⟩ := k3 hl1
        subst hl1; subst e1
        refine ⟨e2, e3, ?_⟩
        simp [endOf]; omega
      · obtain ⟨e1, e2, e3⟩ := k4 hl1
        refine ⟨e1, e2, ?_⟩
        have : endOf (a :: l1) = endOf l1 := by
          unfold endOf
          rw [List.getLast?_cons]
          cases hgl : l1.getLast? with
          | none => rw [List.getLast?_eq_none_iff] at hgl; exact absurd hgl hl1
          | some b => simp
        rw [this, ← e3]; simp; omega

/-- Where each token is: after the previous one, separated from it only by white space, newlines
and comments; its text is a token text of its kind, with its value; the last token is the
end-of-file mark behind the whole text, and only that one. So nothing of the text is lost, tokens
are in order and do not overlap. -/
theorem C10_tokens_tile_the_text (s : List Nat) (h : SourceText s) (tail : List Nat) (ts : List Tok)
    (hok : tokenize false (s ++ 0 :: tail) = .ok ts) (l1 l2 : List Tok) (t : Tok) (hts : ts = l1 ++ t :: l2) :
    ∃ (u g w : List Nat) (nl sp : Bool), s = u ++ g ++ w ∧ u.length = endOf l1 ∧ Gap nl sp g ∧
      t.loc = (u ++ g).length ∧
      (l2 = [] → t.kind = .eof ∧ t.len = 0 ∧ w = []) ∧
      (l2 ≠ [] → ∃ x rest, w = x ++ rest ∧ x ≠ [] ∧ t.len = x.length ∧ TokenText t.kind t.val x rest) ∧
      -- used for C11
      t.lineNo = 1 + (u ++ g).count 10 ∧ t.hasSpace = sp ∧
      (t.atBol = true ↔ l1 = [] ∨ nl = true ∨ l2 = []) := by
  have hl := (C10_tokens_iff s h tail ts).1 hok
  rw [hts] at hl
  obtain ⟨u, r, bol', sp', k1, k2, k3, k4⟩ := layout_at (s := s) l1 s 0 1 true false t l2 hl
  obtain ⟨g, w, t', ts', nl, sg, h1, h2, h3, h4, h5, h6, h7, h8⟩ := layout_gap k2
  simp only [List.cons.injEq] at h3
  obtain ⟨rfl, rfl⟩ := h3
  have hu : u.length = endOf l1 := by
    by_cases hl1 : l1 = []
    · rw [(k3 hl1).1, hl1]; rfl
    · have := (k4 hl1).2.2; omega
  have hsp : sp' = false := by
    by_cases hl1 : l1 = []
    · exact (k3 hl1).2.2
    · exact (k4 hl1).2.1
  refine ⟨u, g, w, nl, sg, by rw [k1, h2]; simp, hu, h1, by rw [h4]; simp, ?_, ?_, by rw [h5, List.count_append]; omega,
    by rw [h6, hsp]; simp, ?_⟩
  · intro he; obtain ⟨a, b, c, d⟩ := h7 he; exact ⟨b, c, a⟩
  · intro hne
    obtain ⟨x, rest, a, b, c, d, e⟩ := h8 hne
    exact ⟨x, rest, a, tokenText_ne c, b, c⟩
  · by_cases he : l2 = []
    · simp [(h7 he).2.2.2, he]
    · obtain ⟨x, rest, a, b, c, d, e⟩ := h8 he
      rw [d]
      by_cases hl1 : l1 = []
      · simp [(k3 hl1).2.1, hl1]
      · simp [(k4 hl1).1, hl1, he]

/-- Non-vacuity: a small file, with a comment, a string and a two-line macro-like text. -/
example : ∃ s, SourceText s ∧ (∃ ts, ts.length = 4 ∧ tokenize false (s ++ [0]) = .ok ts) :=
  ⟨[97, 32, 47, 42, 10, 42, 47, 61, 34, 120, 34, 10],
   ⟨by decide, by decide, Or.inr ⟨[97, 32, 47, 42, 10, 42, 47, 61, 34, 120, 34], rfl⟩⟩,
   _, rfl, rfl⟩

/-- The newline at the end is needed: after a `//` comment that runs into the terminating NUL the
tokenizer reads on, and takes a token from the stale bytes behind it. (Buffers that end in a
backslash-newline reach the tokenizer without a final newline, see C08.) -/
theorem C10_final_newline_needed :
    tokenize false ([47, 47, 97] ++ 0 :: []) = .ub ∧
    ∃ ts, tokenize false ([47, 47, 97] ++ 0 :: [10, 98, 10, 0]) = .ok ts ∧ ts.head?.map Tok.loc = some 5 := by
  exact ⟨rfl, _, rfl, rfl⟩

end Slimcc.Props
