import Verif.Lemmas.PrintTokOut
/-!
C58: the output of `-E` is read again as the tokens that were printed.

`printTokens optP name ts` models `print_tokens` (the text written by `-E`; `optP` is `-P`, `name` the name of
each file), `readSource` the reading of a file up to its tokens. A printed token has a kind, a value, a spelling,
the two flags (first of its line, white space before it) and a place (file and line). `views` are the tokens of a
text with their spellings, `printed` what should be read, `Readable` says that each token is one when what is
printed without white space behind it follows (all in Spec/PrintTok).
-/
set_option autoImplicit false
namespace Slimcc.Props
open Slimcc Slimcc.Lex Slimcc.Spec Slimcc.PrintTok

/-- Tokens whose spellings are bytes of a text. -/
def PlainBytes (ts : List PTok) : Prop := ∀ t ∈ ts, ∀ b ∈ t.text, b < 256 ∧ b ≠ 0

theorem print_ok {optP : Bool} {name : Nat → List Nat} {ts : List PTok} (hb : PlainBytes ts)
    (hn : optP = true ∨ ∀ t ∈ ts, PlainName (name t.file) ∧ 0 ∉ name t.file) :
    ∀ b ∈ printTokens optP name ts, b < 256 ∧ b ≠ 0 := by
  intro b h
  unfold printTokens at h
  rw [List.mem_append] at h
  rcases h with h | h
  · rcases print_bytes optP name b ts true none h with ⟨t, ht, hx⟩ | ⟨h0, t, ht, hx⟩ | h
    · exact hb t ht b hx
    · rcases hn with hn | hn
      · rw [hn] at h0; cases h0
      · refine ⟨((hn t ht).1 b hx).2.2.2, ?_⟩
        rintro rfl
        exact (hn t ht).2 hx
    · unfold IsDigit at h; omega
  · simp at h; omega

/-- The text that is printed has the tokens that were printed: the same kinds, values, spellings, lines and white
space, with a line `# line "name"` whenever the file changes unless `-P` is given. This holds for every
sequence of tokens, also one made by macros, as long as no two tokens printed next to each other run together. -/
theorem C58_reread (optP : Bool) (name : Nat → List Nat) (ts : List PTok) (h : Readable ts) (hb : PlainBytes ts)
    (hn : optP = true ∨ ∀ t ∈ ts, PlainName (name t.file) ∧ 0 ∉ name t.file) (tail : List Nat) :
    ∃ rs, tokenize false (printTokens optP name ts ++ 0 :: tail) = .ok rs ∧
      views (printTokens optP name ts) rs = printed optP name ts := by
  have hout := print_ok hb hn
  have hr := pieces_read optP name ts true none h (hn.imp id (fun h t ht => (h t ht).1))
  obtain ⟨rs, h1, h2⟩ := layout_glue (e := [10]) (by simp) (by simp [Blank]) _ [] 1 true false hr
  have e : glue (pieces optP name true none ts) [10] = printTokens optP name ts := by rw [printTokens, print_glue]
  rw [e] at h1 h2
  refine ⟨rs, C10_complete _ (fun b hb => (hout b hb).1) (fun b hb => (hout b hb).2) tail rs (by simpa using h1), ?_⟩
  rw [List.nil_append] at h2
  rw [h2, expect_printed]

/-- The same through all of the reading of a file: the earlier phases leave the output as it is. No token may be a
lone backslash, contain a backslash before a newline, or a carriage return. -/
theorem C58_reread_file (optP : Bool) (name : Nat → List Nat) (ts : List PTok) (h : Readable ts) (hb : PlainBytes ts)
    (hn : optP = true ∨ ∀ t ∈ ts, PlainName (name t.file) ∧ 0 ∉ name t.file ∧ 13 ∉ name t.file)
    (hbs : ∀ t ∈ ts, t.text ≠ [92] ∧ ¬ [92, 10] <:+: t.text ∧ 13 ∉ t.text) (tail : List Nat) :
    ∃ rs, readSource (printTokens optP name ts ++ 0 :: tail) = .ok rs ∧
      views (printTokens optP name ts) rs = printed optP name ts := by
  have hn1 : optP = true ∨ ∀ t ∈ ts, PlainName (name t.file) ∧ 0 ∉ name t.file := hn.imp id (fun h t ht => ⟨(h t ht).1, (h t ht).2.1⟩)
  have hn2 : optP = true ∨ ∀ t ∈ ts, PlainName (name t.file) := hn.imp id (fun h t ht => (h t ht).1)
  obtain ⟨rs, h1, h2⟩ := C58_reread optP name ts h hb hn1 tail
  refine ⟨rs, ?_, h2⟩
  rw [readSource_same _ tail (fun b hx => (print_ok hb hn1 b hx).2) ?_ ?_
    (print_noBom optP name ts (readable_tok h)), h1]
  · intro hx
    unfold printTokens at hx
    rw [List.mem_append] at hx
    rcases hx with hx | hx
    · rcases print_bytes optP name 13 ts true none hx with ⟨t, ht, hx⟩ | ⟨h0, t, ht, hx⟩ | hx
      · exact (hbs t ht).2.2 hx
      · rcases hn with h | h
        · rw [h] at h0; cases h0
        · exact (h t ht).2.2 hx
      · unfold IsDigit at hx; omega
    · simp at hx
  · exact print_noPair optP name ts true none (readable_tok h) (fun t ht => ⟨(hbs t ht).1, (hbs t ht).2.1⟩) hn2

/-- Tokens with white space (or a line end) between them are always read again. -/
theorem C58_spaced (ts : List PTok) (hs : ∀ t ∈ ts.tail, t.atBol = true ∨ t.hasSpace = true)
    (ht : ∀ t ∈ ts, ∃ r, TokenText t.kind t.val t.text r) : Readable ts := by
  have key : ∀ ts : List PTok, (∀ t ∈ ts, t.atBol = true ∨ t.hasSpace = true) →
      (∀ t ∈ ts, ∃ r, TokenText t.kind t.val t.text r) → Readable ts ∧ joined ts = [] := by
    intro ts
    induction ts with
    | nil => intro _ _; exact ⟨trivial, rfl⟩
    | cons t ts ih =>
      intro h1 h2
      obtain ⟨k1, k2⟩ := ih (fun t h => h1 t (by simp [h])) (fun t h => h2 t (by simp [h]))
      refine ⟨⟨?_, k1⟩, ?_⟩
      · rw [k2]; exact h2 t (by simp)
      · have := h1 t (by simp)
        rw [joined, if_pos (by simpa using this)]
  cases ts with
  | nil => exact trivial
  | cons t ts =>
    obtain ⟨k1, k2⟩ := key ts hs (fun t h => ht t (by simp [h]))
    exact ⟨by rw [k2]; exact ht t (by simp), k1⟩

theorem ofFile_sub {s : List Nat} {f : Nat} {ts : List Tok} {t : PTok} (h : t ∈ ofFile s f ts) : t.text <:+: s := by
  unfold ofFile at h
  rw [List.mem_map] at h
  obtain ⟨a, _, rfl⟩ := h
  exact (List.take_prefix _ _).isInfix.trans (List.drop_suffix _ _).isInfix

/-- A file without directives and macros: what is printed with `-E -P` has the tokens of the file, in the same lines,
with the same kinds, values and spellings; only white space at the beginning of a line is lost (and comments, blank
lines and the amount of white space). -/
theorem C58_source (s : List Nat) (hs : SourceText s) (ts : List Tok) (tail : List Nat)
    (hok : tokenize false (s ++ 0 :: tail) = .ok ts) (f : Nat) (name : Nat → List Nat) (tail' : List Nat) :
    ∃ rs, tokenize false (printTokens true name (ofFile s f ts) ++ 0 :: tail') = .ok rs ∧
      views (printTokens true name (ofFile s f ts)) rs = (views s ts).map View.unindent := by
  have hl := (C10_tokens_iff s hs tail ts).1 hok
  have hr := (layout_joined f ts [] 1 true false s hl).1
  rw [List.nil_append] at hr
  obtain ⟨rs, h1, h2⟩ := C58_reread true name (ofFile s f ts) hr
    (fun t ht b hb => ⟨hs.byte b ((ofFile_sub ht).subset hb), hs.nulFree b ((ofFile_sub ht).subset hb)⟩) (.inl rfl) tail'
  exact ⟨rs, h1, by rw [h2, ← views_ofFile s f hl]; rfl⟩

/-- And through all of the reading of a file. -/
theorem C58_source_file (s : List Nat) (hs : SourceText s) (ts : List Tok) (tail : List Nat)
    (hok : tokenize false (s ++ 0 :: tail) = .ok ts) (f : Nat) (name : Nat → List Nat)
    (h13 : 13 ∉ s) (hpair : ¬ [92, 10] <:+: s) (hbs : ∀ v ∈ views s ts, v.text ≠ [92]) (tail' : List Nat) :
    ∃ rs, readSource (printTokens true name (ofFile s f ts) ++ 0 :: tail') = .ok rs ∧
      views (printTokens true name (ofFile s f ts)) rs = (views s ts).map View.unindent := by
  have hl := (C10_tokens_iff s hs tail ts).1 hok
  have hr := (layout_joined f ts [] 1 true false s hl).1
  rw [List.nil_append] at hr
  obtain ⟨rs, h1, h2⟩ := C58_reread_file true name (ofFile s f ts) hr
    (fun t ht b hb => ⟨hs.byte b ((ofFile_sub ht).subset hb), hs.nulFree b ((ofFile_sub ht).subset hb)⟩) (.inl rfl) (by
      intro t ht
      refine ⟨?_, fun h => hpair (h.trans (ofFile_sub ht)), fun h => h13 ((ofFile_sub ht).subset h)⟩
      unfold ofFile at ht
      rw [List.mem_map] at ht
      obtain ⟨a, ha, rfl⟩ := ht
      exact hbs ⟨a.kind, a.val, (s.drop a.loc).take a.len, a.atBol, a.hasSpace⟩
        (by unfold views; exact List.mem_map.2 ⟨a, (List.mem_filter.1 ha).1, rfl⟩)) tail'
  exact ⟨rs, h1, by rw [h2, ← views_ofFile s f hl]; rfl⟩

/-- The output of `-E -P` run on that output is the same text again. -/
theorem C58_twice (s : List Nat) (hs : SourceText s) (ts : List Tok) (tail : List Nat)
    (hok : tokenize false (s ++ 0 :: tail) = .ok ts) (f f' : Nat) (name name' : Nat → List Nat) (rs : List Tok) (tail' : List Nat)
    (hre : tokenize false (printTokens true name (ofFile s f ts) ++ 0 :: tail') = .ok rs) :
    printTokens true name' (ofFile (printTokens true name (ofFile s f ts)) f' rs) = printTokens true name (ofFile s f ts) := by
  obtain ⟨rs', h1, h2⟩ := C58_source s hs ts tail hok f name tail'
  rw [hre] at h1
  cases h1
  have e : ((views (printTokens true name (ofFile s f ts)) rs).map View.unindent) = (views s ts).map View.unindent := by
    rw [h2, List.map_map]
    congr 1
    funext v
    simp [View.unindent]
  calc printTokens true name' (ofFile (printTokens true name (ofFile s f ts)) f' rs)
      = viewText true (((views (printTokens true name (ofFile s f ts)) rs).map View.unindent).filter (·.kind ≠ .eof)) ++ [10] := by
        rw [printTokens, print_views]
    _ = viewText true (((views s ts).map View.unindent).filter (·.kind ≠ .eof)) ++ [10] := by rw [e]
    _ = printTokens true name (ofFile s f ts) := by rw [printTokens, print_views]

/-! ### Cases -/

/-- `a/**/=x+ +1;` and an indented line with a character and a string. -/
def efile : List Nat := [97, 47, 42, 42, 47, 61, 120, 43, 32, 43, 49, 59, 10, 10, 32, 98, 39, 99, 39, 34, 92, 110, 34, 10]

/-- Its tokens. -/
def etoks : List Tok :=
  [⟨.ident, 0, 1, true, false, .none, 1⟩, ⟨.punct, 5, 1, false, true, .none, 1⟩, ⟨.ident, 6, 1, false, false, .none, 1⟩,
   ⟨.punct, 7, 1, false, false, .none, 1⟩, ⟨.punct, 9, 1, false, true, .none, 1⟩, ⟨.ppNum, 10, 1, false, false, .none, 1⟩,
   ⟨.punct, 11, 1, false, false, .none, 1⟩, ⟨.ident, 15, 1, true, true, .none, 3⟩, ⟨.intNum, 16, 3, false, false, .chr 99 .int, 3⟩,
   ⟨.str, 19, 4, false, false, .str .narrow [10], 3⟩, ⟨.eof, 24, 0, true, false, .none, 4⟩]

theorem efile_ok : SourceText efile :=
  ⟨by decide, by decide, .inr ⟨efile.dropLast, by decide⟩⟩

/-- `C58_source_file` and `C58_twice` apply to it, and the printed text is as expected. -/
example : tokenize false (efile ++ [0]) = .ok etoks ∧
    printTokens true (fun _ => []) (ofFile efile 0 etoks) =
      [97, 32, 61, 120, 43, 32, 43, 49, 59, 10, 98, 39, 99, 39, 34, 92, 110, 34, 10] ∧
    13 ∉ efile ∧ ¬ [92, 10] <:+: efile ∧ (∀ v ∈ views efile etoks, v.text ≠ [92]) :=
  ⟨rfl, rfl, by decide, by decide, by decide⟩

/-- Line markers: the tokens of `a.c` from line 7 and one of another file. -/
example : Readable [⟨.ident, .none, [120], true, false, 0, 7⟩, ⟨.ident, .none, [121], false, true, 1, 12⟩] ∧
    printTokens false (fun f => if f = 0 then [97, 46, 99] else [98, 46, 104])
      [⟨.ident, .none, [120], true, false, 0, 7⟩, ⟨.ident, .none, [121], false, true, 1, 12⟩] =
      [10, 35, 32, 55, 32, 34, 97, 46, 99, 34, 10, 120, 10, 35, 32, 49, 50, 32, 34, 98, 46, 104, 34, 10, 32, 121, 10] := by
  refine ⟨C58_spaced _ (by simp) ?_, by decide⟩
  have hid : ∀ c : Nat, c = 120 ∨ c = 121 → TokenText .ident .none [c] [32] := by
    intro c hc
    refine .ident _ _ (by simp) (.ascii _ _ _ _ ?_ (.stop _ _ ?_ ?_)) ?_ ?_
    · unfold IsIdAscii IsLetter; omega
    · rintro ⟨b, t, e, h⟩; injection e with e1 _; subst e1; exact (blank_not (.inl rfl)).1 h
    · rintro ⟨b, t, e, h⟩; injection e with e1 _; subst e1; simp at h
    · rintro ⟨b, t, e, h⟩; injection e with e1 _; subst e1; unfold IsDigit at h; omega
    · rcases hc with rfl | rfl
      · unfold StartsLiteral; decide
      · unfold StartsLiteral; decide
  intro t ht
  simp only [List.mem_cons, List.not_mem_nil, or_false] at ht
  rcases ht with rfl | rfl
  · exact ⟨_, hid 120 (.inl rfl)⟩
  · exact ⟨_, hid 121 (.inr rfl)⟩

/-! ### Where it fails -/

/-- The tokens of `+P` with `#define P +` (the second has no white space before it): the output is `++`, which is one
token. -/
theorem C58_tokens_joined :
    ∃ ts : List PTok, ts.map (·.text) = [[43], [43]] ∧ (∀ t ∈ ts, TokenText t.kind t.val t.text [32]) ∧
      printTokens true (fun _ => []) ts = [43, 43, 10] ∧
      ∃ rs, tokenize false ([43, 43, 10] ++ [0]) = .ok rs ∧ (views [43, 43, 10] rs).map View.text = [[43, 43], []] := by
  refine ⟨[⟨.punct, .none, [43], true, false, 0, 1⟩, ⟨.punct, .none, [43], false, false, 0, 1⟩], rfl, ?_, rfl, _, rfl, rfl⟩
  have h : TokenText .punct .none [43] [32] := by
    refine .punct _ _ (by simp) ⟨.inr ⟨[43], by decide, by decide, rfl⟩, by decide⟩ (by unfold StartsComment; decide) ?_
    intro r e; simp at e
  intro t ht
  simp only [List.mem_cons, List.not_mem_nil, or_false] at ht
  rcases ht with rfl | rfl <;> exact h

/-- A backslash followed by blanks at the end of a line is a token of its own; the blanks are not printed, so that
the output has a backslash before the newline, and the next line is joined on re-reading. -/
theorem C58_backslash_lost :
    ∃ ts, tokenize false ([97, 92, 32, 10, 98, 10] ++ [0]) = .ok ts ∧
      (views [97, 92, 32, 10, 98, 10] ts).map View.text = [[97], [92], [98], []] ∧
      printTokens true (fun _ => []) (ofFile [97, 92, 32, 10, 98, 10] 0 ts) = [97, 92, 10, 98, 10] ∧
      ∃ rs, readSource ([97, 92, 10, 98, 10] ++ [0]) = .ok rs ∧ (views [97, 98, 10] rs).map View.text = [[97, 98], []] :=
  ⟨_, rfl, rfl, rfl, _, rfl, rfl⟩

/-- The name of a file is not escaped: one with a quote makes a line marker that is not readable. -/
theorem C58_name_not_escaped :
    printTokens false (fun _ => [97, 34, 98]) [⟨.ident, .none, [120], true, false, 0, 1⟩] =
      [10, 35, 32, 49, 32, 34, 97, 34, 98, 34, 10, 120, 10] ∧
    tokenize false ([10, 35, 32, 49, 32, 34, 97, 34, 98, 34, 10, 120, 10] ++ [0]) = .error :=
  ⟨by decide, rfl⟩

end Slimcc.Props
