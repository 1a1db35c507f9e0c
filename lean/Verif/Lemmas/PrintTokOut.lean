import Verif.Lemmas.PrintTok
import Verif.Props.C07
import Verif.Props.C08
set_option autoImplicit false
namespace Slimcc.PrintTok
open Slimcc Slimcc.Lex Slimcc.Spec Slimcc.Props Slimcc.Source

/-! ### The output in pieces -/

theorem decimal_eq : ∀ (f n : Nat), n < f → decimal f n = chars (Nat.toDigits 10 n)
  | 0, n, h => absurd h (by omega)
  | f + 1, n, h => by
    have hd : ∀ d : Fin 10, (Nat.digitChar d.1).toNat = 48 + d.1 := by decide
    rw [decimal]
    split
    · next h1 =>
      rw [Nat.toDigits_of_lt_base h1]
      simp [chars, hd ⟨n, h1⟩, Nat.mod_eq_of_lt h1]
    · next h1 =>
      rw [Nat.toDigits_of_base_le (by decide) (by omega), decimal_eq f (n / 10) (by omega)]
      simp only [chars, List.map_append, List.map_cons, List.map_nil]
      rw [hd ⟨n % 10, Nat.mod_lt _ (by decide)⟩]

theorem digits_char (n : Nat) : ∀ b ∈ chars (Nat.toDigits 10 n), IsDigit b := by
  intro b hb
  unfold chars at hb
  rw [List.mem_map] at hb
  obtain ⟨c, hc, rfl⟩ := hb
  have := Nat.isDigit_of_mem_toDigits (by decide) (by decide) hc
  simp [Char.isDigit] at this
  unfold IsDigit
  have h1 := UInt32.le_iff_toNat_le.1 this.1
  have h2 := UInt32.le_iff_toNat_le.1 this.2
  exact ⟨h1, h2⟩

def gapOf (first : Bool) (t : PTok) : List Nat :=
  (if !first && t.atBol then [10] else []) ++ (if t.hasSpace && !t.atBol then [32] else [])

def markerPieces (name : Nat → List Nat) (t : PTok) : List Piece :=
  [⟨[10], .punct, .none, [35]⟩, ⟨[32], .ppNum, .none, chars (Nat.toDigits 10 t.line)⟩,
   ⟨[32], .str, .str .narrow (name t.file), 34 :: name t.file ++ [34]⟩]

def pieces (optP : Bool) (name : Nat → List Nat) : Bool → Option Nat → List PTok → List Piece
  | _, _, [] => []
  | first, cur, t :: ts =>
    if optP = true ∨ cur = some t.file then
      ⟨gapOf first t, t.kind, t.val, t.text⟩ :: pieces optP name false cur ts
    else markerPieces name t ++ ⟨10 :: gapOf first t, t.kind, t.val, t.text⟩ :: pieces optP name false (some t.file) ts

theorem print_glue (optP : Bool) (name : Nat → List Nat) (e : List Nat) : ∀ (ts : List PTok) (first : Bool) (cur : Option Nat),
    printLoop optP name first cur ts ++ e = glue (pieces optP name first cur ts) e
  | [], _, _ => rfl
  | t :: ts, first, cur => by
    have ih := print_glue optP name e ts false
    rw [printLoop, pieces]
    by_cases hm : optP = true ∨ cur = some t.file
    · have : (!optP && cur != some t.file) = false := by
        rcases hm with h | h <;> simp [h]
      simp only [this, hm, if_true, glue, gapOf]
      rw [← ih]
      simp
    · have : (!optP && cur != some t.file) = true := by
        simp only [not_or, Bool.not_eq_true] at hm
        simp [hm.1, hm.2]
      simp only [this, hm, if_true, if_false, glue, gapOf, markerPieces, List.cons_append, List.nil_append]
      rw [← ih, marker, decimal_eq _ _ (by omega)]
      simp

theorem joined_adj (optP : Bool) (name : Nat → List Nat) : ∀ (ts : List PTok) (cur : Option Nat),
    ∃ r, joined ts = adj (pieces optP name false cur ts) ++ r
  | [], _ => ⟨[], rfl⟩
  | t :: ts, cur => by
    by_cases hm : optP = true ∨ cur = some t.file
    · simp only [pieces, joined, hm, if_true, adj]
      cases hb : t.atBol <;> cases hs : t.hasSpace <;> simp [gapOf, hb, hs]
      obtain ⟨r, e⟩ := joined_adj optP name ts cur
      exact ⟨r, by rw [e]⟩
    · simp only [pieces, hm, if_false, markerPieces, List.cons_append, adj]
      exact ⟨joined (t :: ts), rfl⟩

theorem gapOf_blank (first : Bool) (t : PTok) : ∀ b ∈ gapOf first t, Blank b := by
  intro b hb
  unfold gapOf at hb
  unfold Blank
  rw [List.mem_append] at hb
  rcases hb with hb | hb <;> split at hb <;> simp at hb <;> omega

theorem hash_token (r : List Nat) : TokenText .punct .none [35] (32 :: r) := by
  refine .punct _ _ (by simp) ⟨.inr ⟨[35], by decide, ⟨32 :: r, rfl⟩, rfl⟩, ?_⟩ ?_ ?_
  · intro q hq hp
    have hall : ∀ q ∈ punctuators, [35] <+: q → q.length = 2 → q = [35, 35] := by decide
    have hl : ∀ q ∈ punctuators, q.head? = some 35 → q = [35] ∨ q = [35, 35] := by decide
    cases q with
    | nil => simp
    | cons a q =>
      simp only [List.cons_append, List.nil_append, List.cons_prefix_cons] at hp
      rcases hl _ hq (by rw [hp.1]; rfl) with h | h
      · rw [h]; simp
      · injection h with h1 h2
        rw [h2] at hp
        simp at hp
  · rintro (h | h) <;> simp at h
  · intro u e; simp at e

theorem digits_run : ∀ (x : List Nat) (r : List Nat), (∀ b ∈ x, IsDigit b) → PpRun x (32 :: r)
  | [], r, _ => by
    refine .stop _ ?_ ?_ ?_ ?_
    · rintro ⟨b, t, e, h⟩; injection e with e1 _; subst e1; exact (blank_not (.inl rfl)).1 h
    · rintro ⟨b, t, e, h⟩; injection e with e1 _; subst e1; simp at h
    · intro r e; simp at e
    · rintro ⟨b, t, e, h⟩; injection e with e1 _; subst e1; simp at h
  | b :: x, r, h => by
    have hb := h b (by simp)
    refine .ascii _ _ _ (.inr (.inl hb)) ?_ (digits_run x r (fun c hc => h c (by simp [hc])))
    rintro ⟨h1, _⟩
    unfold IsExp at h1; unfold IsDigit at hb; omega

theorem number_token (n : Nat) (r : List Nat) : TokenText .ppNum .none (chars (Nat.toDigits 10 n)) (32 :: r) := by
  have hne : chars (Nat.toDigits 10 n) ≠ [] := by
    unfold chars; rw [Ne, List.map_eq_nil_iff]; exact Nat.toDigits_ne_nil
  have hd := digits_char n
  generalize chars (Nat.toDigits 10 n) = x at hne hd
  cases x with
  | nil => exact absurd rfl hne
  | cons d y =>
    exact .num [] d y _ (.inl rfl) (hd d (by simp)) (digits_run y r (fun b hb => hd b (by simp [hb])))

theorem plain_body : ∀ x : List Nat, PlainName x → StrBody .narrow x x
  | [], _ => .nil
  | b :: x, h => by
    obtain ⟨h1, h2, h3, h4⟩ := h b (by simp)
    have := StrBody.chr (e := .narrow) [b] [b] x x ⟨b, rfl, by rw [Nat.mod_eq_of_lt h4]⟩
      (by rintro ⟨c, t, e, h⟩; injection e with e1 _; subst e1; omega) (plain_body x (fun c hc => h c (by simp [hc])))
    exact this

theorem name_token (x : List Nat) (h : PlainName x) (r : List Nat) :
    TokenText .str (.str .narrow x) (34 :: x ++ [34]) r :=
  .str [] .narrow x x r (by decide) (plain_body x h)

theorem pieces_read (optP : Bool) (name : Nat → List Nat) : ∀ (ts : List PTok) (first : Bool) (cur : Option Nat),
    Readable ts → (optP = true ∨ ∀ t ∈ ts, PlainName (name t.file)) → Read (pieces optP name first cur ts)
  | [], _, _, _, _ => trivial
  | t :: ts, first, cur, h, hn => by
    rw [Readable] at h
    obtain ⟨⟨r, hr⟩, h2⟩ := h
    have hn' : optP = true ∨ ∀ t ∈ ts, PlainName (name t.file) := hn.imp id (fun h t ht => h t (by simp [ht]))
    have ih := fun cur => pieces_read optP name ts false cur h2 hn'
    have key : ∀ cur, ∃ r, TokenText t.kind t.val t.text (adj (pieces optP name false cur ts) ++ r) := by
      intro cur
      obtain ⟨r', e⟩ := joined_adj optP name ts cur
      rw [e, List.append_assoc] at hr
      exact ⟨_, hr⟩
    rw [pieces]
    split
    · exact ⟨gapOf_blank first t, key cur, ih cur⟩
    · next hm =>
      have hname : PlainName (name t.file) := by
        rcases hn with h | h
        · exact absurd (.inl h) hm
        · exact h t (by simp)
      simp only [markerPieces, List.cons_append, List.nil_append, Read, adj]
      refine ⟨by simp [Blank], ⟨[32], ?_⟩, by simp [Blank], ⟨[32], ?_⟩, by simp [Blank], ⟨[], ?_⟩, ?_, key _, ih _⟩
      · simpa using hash_token []
      · simpa using number_token t.line []
      · exact name_token _ hname _
      · intro b hb
        rw [List.mem_cons] at hb
        exact hb.elim (fun h => .inr h) (gapOf_blank first t b)

theorem gapOf_bol (bol first : Bool) (t : PTok) : bolAfter bol (gapOf first t) = (bol || (!first && t.atBol)) := by
  cases bol <;> cases first <;> cases hb : t.atBol <;> cases hs : t.hasSpace <;> simp [gapOf, hb, hs, bolAfter]

theorem gapOf_sp (first : Bool) (t : PTok) : spAfter false (gapOf first t) = (t.hasSpace && !t.atBol) := by
  cases first <;> cases hb : t.atBol <;> cases hs : t.hasSpace <;> simp [gapOf, hb, hs, spAfter]

theorem expect_marked (name : Nat → List Nat) : ∀ (ts : List PTok) (first bol : Bool) (cur : Option Nat),
    (cur = none ∨ (first = false ∧ bol = false)) →
    expect bol false (pieces false name first cur ts) [10] = markedFrom name cur ts ++ [View.eof]
  | [], _, bol, _, _ => by simp [pieces, expect, markedFrom, View.eof, spAfter]
  | t :: ts, first, bol, cur, h => by
    have ih := fun cur => expect_marked name ts false false cur (.inr ⟨rfl, rfl⟩)
    rw [pieces, markedFrom]
    by_cases hm : cur = some t.file
    · have hf : first = false ∧ bol = false := by
        rcases h with h | h
        · rw [h] at hm; cases hm
        · exact h
      simp only [hm, or_true, if_true, expect, gapOf_bol, gapOf_sp, hf.1, hf.2]
      rw [ih]
      simp [shown]
    · have h1 : bolAfter false (10 :: gapOf first t) = true := by simp [bolAfter]
      have h2 : spAfter false (10 :: gapOf first t) = (t.hasSpace && !t.atBol) := by rw [← gapOf_sp first]; rfl
      simp only [hm, or_false, if_false, Bool.false_eq_true, markerPieces, List.cons_append, List.nil_append, expect, h1, h2, ih]
      simp [lineMarker, shown, bolAfter, spAfter, chars]

theorem expect_tail (name : Nat → List Nat) : ∀ (ts : List PTok) (cur : Option Nat),
    expect false false (pieces true name false cur ts) [10] = ts.map (shown false) ++ [View.eof]
  | [], _ => by simp [pieces, expect, View.eof, spAfter]
  | t :: ts, cur => by
    simp only [pieces, true_or, if_true, expect, gapOf_bol, gapOf_sp, expect_tail name ts cur]
    simp [shown]

theorem expect_printed (optP : Bool) (name : Nat → List Nat) (ts : List PTok) :
    expect true false (pieces optP name true none ts) [10] = printed optP name ts := by
  cases optP with
  | false => rw [expect_marked name ts true true none (.inl rfl)]; rfl
  | true =>
    cases ts with
    | nil => simp [pieces, expect, printed, View.eof, spAfter]
    | cons t ts =>
      simp only [pieces, true_or, if_true, expect, gapOf_bol, gapOf_sp, expect_tail name ts none]
      simp [shown, printed]

/-- Every byte of the output is one of a token, of a name, or is printable ASCII, or a newline. -/
theorem print_bytes (optP : Bool) (name : Nat → List Nat) (b : Nat) : ∀ (ts : List PTok) (first : Bool) (cur : Option Nat),
    b ∈ printLoop optP name first cur ts → (∃ t ∈ ts, b ∈ t.text) ∨ (optP = false ∧ ∃ t ∈ ts, b ∈ name t.file) ∨ b = 10 ∨ b = 32 ∨ b = 34 ∨ b = 35 ∨ IsDigit b
  | [], _, _, h => by cases h
  | t :: ts, first, cur, h => by
    rw [printLoop] at h
    simp only [List.mem_append] at h
    rcases h with (((h | h) | h) | h) | h
    · split at h
      · next hm =>
        simp at hm
        rw [marker, decimal_eq _ _ (by omega)] at h
        simp only [List.mem_append] at h
        rcases h with (((h | h) | h) | h) | h
        · simp at h; rcases h with rfl | rfl | rfl <;> simp
        · exact .inr (.inr (.inr (.inr (.inr (.inr (digits_char _ b h))))))
        · simp at h; rcases h with rfl | rfl <;> simp
        · exact .inr (.inl ⟨hm.1, t, by simp, h⟩)
        · simp at h; rcases h with rfl | rfl <;> simp
      · cases h
    · split at h
      · simp at h; simp [h]
      · cases h
    · split at h
      · simp at h; simp [h]
      · cases h
    · exact .inl ⟨t, by simp, h⟩
    · rcases print_bytes optP name b ts false _ h with ⟨t, ht, hb⟩ | ⟨h0, t, ht, hb⟩ | h
      · exact .inl ⟨t, by simp [ht], hb⟩
      · exact .inr (.inl ⟨h0, t, by simp [ht], hb⟩)
      · exact .inr (.inr h)

/-! ### Phases that change nothing -/

theorem splice_same : ∀ t : List Nat, ¬ [92, 10] <:+: t → splice 0 t = t
  | [], _ => by rw [splice]
  | c :: r, h => by
    have hr : ¬ [92, 10] <:+: r := fun ⟨a, b, e⟩ => h ⟨c :: a, b, by rw [← e]; rfl⟩
    have ih := splice_same r hr
    rw [splice.eq_def]
    split
    · simp at *
    · next heq => injection heq with h1 h2; exact absurd ⟨[], _, by rw [h1, h2]; rfl⟩ h
    · next heq => injection heq with h1 h2; rw [← h2, ih, h1]; rfl
    · next heq => injection heq with h1 h2; rw [← h2, ih, h1]

theorem skipBom_same (m : List Nat) (h : ¬ [239, 187, 191] <+: m) : skipBom m = m := by
  rw [skipBom.eq_def]; split
  · exact absurd ⟨_, rfl⟩ h
  · rfl

theorem mem_of_cstr {t tail m : List Nat} (hz : ∀ c ∈ t, c ≠ 0) (h1 : Source.cstr m = t) (h2 : m.length = (t ++ 0 :: tail).length)
    (h3 : m.drop (t.length + 1) = tail) : m = t ++ 0 :: tail := by
  have e : m = t ++ m.dropWhile (· ≠ 0) := by
    have := List.takeWhile_append_dropWhile (p := (· ≠ 0)) (l := m)
    rw [← h1]; exact this.symm
  cases hd : m.dropWhile (· ≠ 0) with
  | nil =>
    rw [hd] at e
    have := congrArg List.length e
    rw [h2] at this; simp at this
  | cons a d =>
    have ha : a = 0 := by
      have := List.head_dropWhile_not (p := (· ≠ 0)) (l := m) (by rw [hd]; simp)
      simp only [hd, List.head_cons] at this
      simpa using this
    rw [hd, ha] at e
    have : m.drop (t.length + 1) = d := by rw [e]; simp
    rw [e, ← this, h3]

/-- A text without carriage returns, backslash-newlines and byte order mark is tokenised as it is. -/
theorem readSource_same (t tail : List Nat) (hz : ∀ c ∈ t, c ≠ 0) (h13 : 13 ∉ t) (hs : ¬ [92, 10] <:+: t)
    (hb : ¬ [239, 187, 191] <+: t) : readSource (t ++ 0 :: tail) = tokenize false (t ++ 0 :: tail) := by
  have hb' : ¬ [239, 187, 191] <+: t ++ 0 :: tail := by
    intro h
    apply hb
    have := prefix_cut (w := 0) (r := []) (by decide) h
    simpa using this
  obtain ⟨m, c1, c2, c3, c4⟩ := C07_canonicalize t tail hz
  have hcr : Spec.crlf t = t := by have := crlf_append t [] h13; simpa [Spec.crlf] using this
  rw [hcr] at c2
  have hm := mem_of_cstr hz c2 c3 c4
  obtain ⟨m', d1, d2, d3, d4⟩ := C08_loop_result t tail hz
  rw [splice_same t hs] at d2
  have hm' := mem_of_cstr hz d2 d3 d4
  unfold readSource
  rw [skipBom_same _ hb', c1]
  simp only []
  rw [hm, d1]
  simp only []
  rw [hm']

/-! ### The tokens of a file -/

theorem gap_none {g : List Nat} {nl sg : Bool} (h : Gap nl sg g) : nl = false → sg = false → g = [] := by
  have aux : ∀ {nl sg : Bool} {g : List Nat}, Gap nl sg g → (∃ r, g = 10 :: r) → nl = true := by
    rintro nl sg g h ⟨r, rfl⟩
    cases h with
    | newline => rfl
    | white _ _ _ _ h => omega
  intro hn hs
  cases h with
  | nil => rfl
  | newline => cases hn
  | white nl sp c g hc h => rw [hn] at hs; simp at hs
  | lineComment nl sp x g hx h => rw [aux h ⟨_, rfl⟩] at hn; cases hn
  | blockComment nl sp x g hx h => rw [hn] at hs; simp at hs

theorem layout_kinds {pos line : Nat} {bol sp : Bool} {s : List Nat} {ts : List Tok} (h : Layout pos line bol sp s ts) :
    ∃ l t, ts = l ++ [t] ∧ t.kind = .eof ∧ t.len = 0 ∧ t.atBol = true ∧ t.val = .none ∧ ∀ a ∈ l, a.kind ≠ .eof := by
  induction h with
  | eof => exact ⟨[], _, rfl, rfl, rfl, rfl, rfl, by simp⟩
  | newline _ _ _ _ _ _ _ ih => exact ih
  | white _ _ _ _ _ _ _ _ _ ih => exact ih
  | lineComment _ _ _ _ _ _ _ _ _ ih => exact ih
  | blockComment _ _ _ _ _ _ _ _ _ ih => exact ih
  | token pos line bol sp k v x t ts hx h ih =>
    obtain ⟨l, t', e, h1, h2, h3, h4, h5⟩ := ih
    refine ⟨_ :: l, t', by rw [e]; rfl, h1, h2, h3, h4, ?_⟩
    intro a ha
    rw [List.mem_cons] at ha
    rcases ha with rfl | ha
    · exact tokenText_kind hx
    · exact h5 a ha

theorem layout_joined (f : Nat) : ∀ (ts : List Tok) (pre : List Nat) (line : Nat) (bol sp : Bool) (s : List Nat),
    Layout pre.length line bol sp s ts →
    Readable (ofFile (pre ++ s) f ts) ∧ (bol = false → sp = false → ∃ r, s = joined (ofFile (pre ++ s) f ts) ++ r)
  | [], pre, line, bol, sp, s, h => by
    obtain ⟨_, _, h, _⟩ := layout_head h; cases h
  | t :: ts, pre, line, bol, sp, s, h => by
    obtain ⟨g, w, t', ts', nl, sg, h1, h2, h3, h4, h5, h6, h7, h8⟩ := layout_gap h
    simp only [List.cons.injEq] at h3
    obtain ⟨rfl, rfl⟩ := h3
    by_cases hne : ts = []
    · have hk := (h7 hne).2.1
      subst hne
      simp [ofFile, hk, Readable, joined]
    · obtain ⟨x, rest, a, b, c, d, e⟩ := h8 hne
      have e1 : pre.length + g.length + x.length = (pre ++ g ++ x).length := by simp; omega
      rw [e1] at e
      obtain ⟨k1, k2⟩ := layout_joined f ts (pre ++ g ++ x) _ false false rest e
      have e2 : pre ++ g ++ x ++ rest = pre ++ s := by rw [h2, a]; simp
      rw [e2] at k1 k2
      obtain ⟨r, hr⟩ := k2 rfl rfl
      have hk := tokenText_kind c
      have htext : ((pre ++ s).drop t.loc).take t.len = x := by
        rw [h4, b, ← e2, ← List.length_append]
        rw [show pre ++ g ++ x ++ rest = (pre ++ g) ++ (x ++ rest) by simp, List.drop_left, List.take_left]
      have ho : ofFile (pre ++ s) f (t :: ts) = ⟨t.kind, t.val, x, t.atBol, t.hasSpace, f, t.lineNo⟩ :: ofFile (pre ++ s) f ts := by
        simp [ofFile, hk, htext]
      rw [ho]
      refine ⟨⟨⟨r, ?_⟩, k1⟩, ?_⟩
      · rw [← hr]; exact c
      · intro hb hs
        rw [joined]
        split
        · exact ⟨s, rfl⟩
        · next hf =>
          rw [d, h6, hb, hs] at hf
          simp only [Bool.false_or, Bool.and_false, Bool.or_false, Bool.not_eq_true, Bool.or_eq_false_iff] at hf
          have hg := gap_none h1 hf.1 hf.2
          refine ⟨r, ?_⟩
          have : s = x ++ rest := by rw [h2, a, hg]; rfl
          rw [List.append_assoc, ← hr]
          exact this

theorem views_ofFile (s : List Nat) (f : Nat) {line : Nat} {ts : List Tok} (h : Layout 0 line true false s ts) :
    printed true (fun _ => []) (ofFile s f ts) = (views s ts).map View.unindent := by
  have hhead : ∀ t ts', ts = t :: ts' → t.atBol = true := by
    intro t ts' e
    obtain ⟨g, w, t', ts'', nl, sg, h1, h2, h3, h4, h5, h6, h7, h8⟩ := layout_gap h
    rw [e] at h3
    injection h3 with h31 h32
    subst h31
    by_cases hne : ts'' = []
    · exact (h7 hne).2.2.2
    · obtain ⟨_, _, _, _, _, d, _⟩ := h8 hne
      rw [d]; rfl
  obtain ⟨l, t, e, k1, k2, k3, k4, k5⟩ := layout_kinds h
  have hf : ts.filter (·.kind ≠ .eof) = l := by
    rw [e, List.filter_append]
    rw [List.filter_eq_self.2 (by intro a ha; simpa using k5 a ha)]
    simp [k1]
  unfold ofFile
  rw [hf]
  have hl : ∀ a : Tok, shown false ⟨a.kind, a.val, (s.drop a.loc).take a.len, a.atBol, a.hasSpace, f, a.lineNo⟩
      = View.unindent ⟨a.kind, a.val, (s.drop a.loc).take a.len, a.atBol, a.hasSpace⟩ := by
    intro a; simp [shown, View.unindent]
  have hall : ((l.map fun t => (⟨t.kind, t.val, (s.drop t.loc).take t.len, t.atBol, t.hasSpace, f, t.lineNo⟩ : PTok)).map (shown false))
      ++ [View.eof] = (views s ts).map View.unindent := by
    rw [e]
    simp only [views, List.map_append, List.map_map, List.map_cons, List.map_nil]
    congr 1
    · simp [View.eof, View.unindent, k1, k2, k3, k4]
  rw [← hall]
  unfold printed
  simp only [if_true]
  cases l with
  | nil => rfl
  | cons a l =>
    have := hhead a (l ++ [t]) (by rw [e]; rfl)
    simp [shown, this]

theorem printLoop_P (name name' : Nat → List Nat) : ∀ (ts : List PTok) (first : Bool) (cur cur' : Option Nat),
    printLoop true name first cur ts = printLoop true name' first cur' ts
  | [], _, _, _ => rfl
  | t :: ts, first, cur, cur' => by
    simp only [printLoop, Bool.not_true, Bool.false_and, Bool.false_eq_true, if_false]
    rw [printLoop_P name name' ts false cur cur']

/-- What is printed depends only on the tokens as they are shown. -/
def viewText : Bool → List View → List Nat
  | _, [] => []
  | first, v :: vs => (if !first && v.bol then [10] else []) ++ (if v.space && !v.bol then [32] else []) ++ v.text ++ viewText false vs

theorem print_views (name : Nat → List Nat) (s : List Nat) (f : Nat) : ∀ (ts : List Tok) (first : Bool) (cur : Option Nat),
    printLoop true name first cur (ofFile s f ts) = viewText first (((views s ts).map View.unindent).filter (·.kind ≠ .eof))
  | [], _, _ => rfl
  | t :: ts, first, cur => by
    have ih := fun first cur => print_views name s f ts first cur
    unfold ofFile views at ih ⊢
    by_cases hk : t.kind = .eof
    · simpa [hk, View.unindent] using ih first cur
    · simp only [List.filter_cons, hk, List.map_cons, View.unindent, ne_eq, not_false_eq_true, decide_true, if_true, printLoop, viewText,
        Bool.not_true, Bool.false_and, Bool.false_eq_true, if_false, List.nil_append]
      have := ih false cur
      simp only [ne_eq, View.unindent] at this
      rw [this]
      cases hb : t.atBol <;> cases hs : t.hasSpace <;> simp [hb, hs]

/-! ### No splices in the output -/

theorem noPair_append : ∀ (a b : List Nat), ¬ [92, 10] <:+: a → a.getLast? ≠ some 92 → ¬ [92, 10] <:+: b → ¬ [92, 10] <:+: a ++ b
  | [], _, _, _, hb => hb
  | x :: a, b, ha, hl, hb => by
    rw [List.cons_append, List.infix_cons_iff]
    rw [List.infix_cons_iff] at ha
    rintro (h | h)
    · rw [List.cons_prefix_cons] at h
      obtain ⟨rfl, h⟩ := h
      cases a with
      | nil => simp at hl
      | cons y a =>
        rw [List.cons_append, List.cons_prefix_cons] at h
        exact ha (.inl (by rw [← h.1]; exact ⟨a, rfl⟩))
    · refine noPair_append a b (fun h => ha (.inr h)) ?_ hb h
      cases a with
      | nil => simp
      | cons y a => simpa [List.getLast?_cons_cons] using hl

theorem loose_no92 {c : Nat} {bs : List Nat} (h : LooseUtf8 c bs) (h2 : 2 ≤ bs.length) : 92 ∉ bs := by
  intro hm
  rcases loose_high h with ⟨h3, _⟩ | ⟨_, h3⟩
  · rw [h3] at h2; simp at h2
  · have := h3 _ hm; omega

theorem ppRun_no92 {x rest : List Nat} (h : PpRun x rest) : 92 ∉ x := by
  induction h with
  | stop => simp
  | dot _ _ _ ih => simp [ih]
  | sep c _ _ hc _ ih => unfold IsLetter IsDigit at hc; simp [ih]; omega
  | exp e s _ _ he hs _ ih => unfold IsExp at he; unfold IsSign at hs; simp [ih]; omega
  | ascii c _ _ hc _ _ ih => unfold IsIdAscii IsLetter IsDigit at hc; simp [ih]; omega
  | uni c bs _ _ h1 h2 _ _ ih => simp [ih, loose_no92 h1 h2]

theorem identRun_no92 {first : Bool} {x rest : List Nat} (h : IdentRun first x rest) : 92 ∉ x := by
  induction h with
  | stop => simp
  | ascii _ c _ _ hc _ ih => unfold IsIdAscii IsLetter IsDigit at hc; simp [ih]; omega
  | uni _ c bs _ _ h1 h2 _ _ ih => simp [ih, loose_no92 h1 h2]

theorem token_last {k : Kind} {v : Val} {x rest : List Nat} (h : TokenText k v x rest) (hx : x ≠ [92]) : x.getLast? ≠ some 92 := by
  cases h with
  | num pre d y _ hp hd hrun =>
    intro h
    have := List.mem_of_getLast? h
    rw [List.mem_append, List.mem_cons] at this
    unfold IsDigit at hd
    rcases this with h | h | h
    · rcases hp with rfl | rfl <;> simp at h
    · omega
    · exact ppRun_no92 hrun h
  | punct _ _ hne hl _ _ =>
    rcases hl.1 with h0 | ⟨q, hq, hp, hlq⟩
    · exact absurd (List.length_eq_zero_iff.1 h0) hne
    · have hqx : q = x := by
        have := List.prefix_of_prefix_length_le hp (List.prefix_append x rest) (by omega)
        exact this.eq_of_length hlq
      subst hqx
      have hall : ∀ q ∈ punctuators, q.getLast? = some 92 → q = [92] := by decide
      exact fun h => hx (hall _ hq h)
  | str pre e t us _ hp hb => rw [List.getLast?_concat]; decide
  | chr pre ty v b junk _ hp hb hj => rw [List.getLast?_concat]; decide
  | ident _ _ hne hr hd hl => exact fun h => identRun_no92 hr (List.mem_of_getLast? h)

theorem readable_tok : ∀ {ts : List PTok}, Readable ts → ∀ t ∈ ts, ∃ r, TokenText t.kind t.val t.text r
  | [], _, _, h => by cases h
  | t :: ts, h, u, hu => by
    rw [Readable] at h
    rw [List.mem_cons] at hu
    rcases hu with rfl | hu
    · obtain ⟨⟨r, hr⟩, _⟩ := h; exact ⟨_, hr⟩
    · exact readable_tok h.2 u hu

theorem print_noPair (optP : Bool) (name : Nat → List Nat) : ∀ (ts : List PTok) (first : Bool) (cur : Option Nat),
    (∀ t ∈ ts, ∃ r, TokenText t.kind t.val t.text r) → (∀ t ∈ ts, t.text ≠ [92] ∧ ¬ [92, 10] <:+: t.text) →
    (optP = true ∨ ∀ t ∈ ts, PlainName (name t.file)) →
    ¬ [92, 10] <:+: printLoop optP name first cur ts ++ [10]
  | [], _, _, _, _, _ => by rw [printLoop]; decide
  | t :: ts, first, cur, h1, h2, h3 => by
    have ih := print_noPair optP name ts false (if !optP && cur != some t.file then some t.file else cur)
      (fun t ht => h1 t (by simp [ht])) (fun t ht => h2 t (by simp [ht])) (h3.imp id (fun h t ht => h t (by simp [ht])))
    have free : ∀ a : List Nat, 92 ∉ a → ¬ [92, 10] <:+: a ∧ a.getLast? ≠ some 92 := by
      intro a ha
      exact ⟨fun h => ha (h.subset (by simp)), fun h => ha (List.mem_of_getLast? h)⟩
    obtain ⟨r, hr⟩ := h1 t (by simp)
    obtain ⟨k1, k2⟩ := h2 t (by simp)
    have step1 := noPair_append t.text _ k2 (token_last hr k1) ih
    obtain ⟨f1, f2⟩ := free ((if (!optP && cur != some t.file) = true then marker name t else []) ++
      (if (!first && t.atBol) = true then [10] else []) ++ (if (t.hasSpace && !t.atBol) = true then [32] else [])) (by
        rw [List.mem_append, List.mem_append]
        rintro ((h | h) | h)
        · split at h
          · next hm =>
            have hname : PlainName (name t.file) := by
              rcases h3 with h | h
              · rw [h] at hm; simp at hm
              · exact h t (by simp)
            rw [marker, decimal_eq _ _ (by omega)] at h
            simp only [List.mem_append] at h
            rcases h with (((h | h) | h) | h) | h
            · simp at h
            · have := digits_char _ _ h; unfold IsDigit at this; omega
            · simp at h
            · exact (hname _ h).2.1 rfl
            · simp at h
          · cases h
        · split at h <;> simp at h
        · split at h <;> simp at h)
    have := noPair_append _ _ f1 f2 step1
    simpa [printLoop] using this

set_option maxRecDepth 20000 in
theorem bom_not_ident : ¬ IsIdUni true 0xFEFF := by
  unfold IsIdUni
  rintro (h | h)
  · obtain ⟨r, hr, h1, h2⟩ := h
    have hall : (Unicode.ident1Table.all fun r => !(decide (r.1 ≤ 0xFEFF) && decide (0xFEFF ≤ r.2))) = true := by rfl
    have := List.all_eq_true.1 hall r hr
    simp [h1, h2] at this
  · simp at h

/-- The output does not begin with a byte order mark: U+FEFF does not begin an identifier. -/
theorem print_noBom (optP : Bool) (name : Nat → List Nat) (ts : List PTok) (h : ∀ t ∈ ts, ∃ r, TokenText t.kind t.val t.text r) :
    ¬ [239, 187, 191] <+: printTokens optP name ts := by
  intro hp
  unfold printTokens at hp
  cases ts with
  | nil => simp [printLoop] at hp
  | cons t ts =>
    rw [printLoop] at hp
    obtain ⟨r, hr⟩ := h t (by simp)
    cases optP with
    | false => simp [marker] at hp
    | true =>
      by_cases hsp : (t.hasSpace && !t.atBol) = true
      · simp [hsp] at hp
      · simp only [hsp, Bool.not_true, Bool.false_and, Bool.false_eq_true, if_false, List.nil_append, List.append_assoc] at hp
        obtain ⟨q, e⟩ := hp
        obtain ⟨c, bs, z, e1, h1, h2⟩ := tokenText_start (u := printLoop true name false none ts ++ [10]) hr
          ⟨239, [187, 191] ++ q, by rw [← e]; rfl, by decide⟩
        have hc : 0xFEFF = c := loose_det (bs := [239, 187, 191]) (a := q) (a' := z)
          (.inr (.inr (.inl ⟨239, 187, 191, rfl, by decide, by decide, by unfold Cont; decide, by unfold Cont; decide, by decide⟩))) h1 (by rw [e, e1])
        subst hc
        exact bom_not_ident h2

end Slimcc.PrintTok
