import Verif.Props.C10
/-!
C11: tokens carry the line number of their first character, and the beginning-of-line flag.
-/
set_option autoImplicit false
namespace Slimcc.Props
open Slimcc Slimcc.Lex Slimcc.Spec

/-- The line number of every token is one plus the number of newlines before it in the buffer. -/
theorem C11_line_number (s : List Nat) (h : SourceText s) (tail : List Nat) (ts : List Tok)
    (hok : tokenize false (s ++ 0 :: tail) = .ok ts) (t : Tok) (ht : t ∈ ts) :
    t.loc ≤ s.length ∧ t.lineNo = 1 + (s.take t.loc).count 10 := by
  obtain ⟨l1, l2, hts⟩ := List.append_of_mem ht
  obtain ⟨u, g, w, nl, sp, h1, _, _, h2, _, _, h3, _⟩ := C10_tokens_tile_the_text s h tail ts hok l1 l2 t hts
  refine ⟨by rw [h2, h1]; simp, ?_⟩
  rw [h3, h2, h1, List.take_left]

/-- The beginning-of-line flag is set exactly for the first token, for the end-of-file mark, and
for the tokens separated from the previous one by a newline outside block comments; the space flag
is set exactly when white space or a comment stands before the token on its line. -/
theorem C11_flags (s : List Nat) (h : SourceText s) (tail : List Nat) (ts : List Tok)
    (hok : tokenize false (s ++ 0 :: tail) = .ok ts) (l1 l2 : List Tok) (t : Tok) (hts : ts = l1 ++ t :: l2) :
    ∃ nl sp, Gap nl sp ((s.take t.loc).drop (endOf l1)) ∧ t.hasSpace = sp ∧
      (t.atBol = true ↔ l1 = [] ∨ nl = true ∨ l2 = []) := by
  obtain ⟨u, g, w, nl, sp, h1, h0, hg, h2, _, _, h3, h4, h5⟩ := C10_tokens_tile_the_text s h tail ts hok l1 l2 t hts
  refine ⟨nl, sp, ?_, h4, h5⟩
  rw [h2, h1, List.take_left, ← h0, List.drop_left]; exact hg

/-- A gap without comments has a newline exactly if it contains the byte 10. -/
theorem gap_plain (nl sp : Bool) (g : List Nat) (h : Gap nl sp g) (hg : 47 ∉ g) : nl = true ↔ 10 ∈ g := by
  induction h with
  | nil => simp
  | newline => simp
  | white nl sp c g hc _ ih =>
    rw [ih (by intro e; exact hg (by simp [e]))]
    have : (10 : Nat) ≠ c := by omega
    simp [this]
  | lineComment => simp at hg
  | blockComment => simp at hg

/-- The flag in the usual case: on a gap without comments it is set iff the gap has a newline. -/
theorem C11_beginning_of_line (s : List Nat) (h : SourceText s) (tail : List Nat) (ts : List Tok)
    (hok : tokenize false (s ++ 0 :: tail) = .ok ts) (l1 l2 : List Tok) (t : Tok) (hts : ts = l1 ++ t :: l2)
    (hl1 : l1 ≠ []) (hl2 : l2 ≠ []) (hc : 47 ∉ (s.take t.loc).drop (endOf l1)) :
    t.atBol = true ↔ 10 ∈ (s.take t.loc).drop (endOf l1) := by
  obtain ⟨nl, sp, hg, _, hb⟩ := C11_flags s h tail ts hok l1 l2 t hts
  rw [hb, ← gap_plain nl sp _ hg hc]
  simp [hl1, hl2]

/-- Non-vacuity: "a /*⏎*/b⏎c⏎": `a` is on line 1, `b` on line 2 but not at the beginning of a
line, `c` on line 3 and at the beginning. -/
example : ∃ ts, tokenize false [97, 32, 47, 42, 10, 42, 47, 98, 10, 99, 10, 0] = .ok ts ∧
    ts.map (fun t => (t.loc, t.lineNo, t.atBol, t.hasSpace)) =
      [(0, 1, true, false), (7, 2, false, true), (9, 3, true, false), (11, 4, true, false)] :=
  ⟨_, rfl, rfl⟩

end Slimcc.Props
