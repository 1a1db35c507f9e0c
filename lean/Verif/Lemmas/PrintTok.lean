import Verif.Spec.PrintTok
import Verif.Props.C10
set_option autoImplicit false
namespace Slimcc.PrintTok
open Slimcc Slimcc.Lex Slimcc.Spec Slimcc.Props

/-! ### What comes after a token matters only up to the next blank -/

theorem loose_det {c c' : Nat} {bs bs' a a' : List Nat} (h : LooseUtf8 c bs) (h' : LooseUtf8 c' bs') (e : bs ++ a = bs' ++ a') : c = c' := by
  unfold LooseUtf8 at h h'
  rcases h with ⟨b, rfl, h1, h2⟩ | ⟨b1, b2, rfl, h1, h2, h3, h4⟩ | ⟨b1, b2, b3, rfl, h1, h2, h3, h4, h5⟩ | ⟨b1, b2, b3, b4, rfl, h1, h3, h4, h5, h6⟩ <;>
  rcases h' with ⟨d, rfl, k1, k2⟩ | ⟨d1, d2, rfl, k1, k2, k3, k4⟩ | ⟨d1, d2, d3, rfl, k1, k2, k3, k4, k5⟩ | ⟨d1, d2, d3, d4, rfl, k1, k3, k4, k5, k6⟩ <;>
  simp only [List.cons_append, List.nil_append, List.cons.injEq] at e <;>
  first
    | omega
    | (obtain ⟨e1, e⟩ := e; subst e1; omega)
    | (obtain ⟨e1, e2, e⟩ := e; subst e1; subst e2; omega)
    | (obtain ⟨e1, e2, e3, e⟩ := e; subst e1; subst e2; subst e3; omega)
    | (obtain ⟨e1, e2, e3, e4, e⟩ := e; subst e1; subst e2; subst e3; subst e4; omega)

def Blank (w : Nat) : Prop := w = 32 ∨ w = 10

/-- `z` is empty or begins like a token. -/
def TokStart (z : List Nat) : Prop :=
  StartsWith (128 ≤ ·) z → ∃ c bs z2, z = bs ++ z2 ∧ LooseUtf8 c bs ∧ IsIdUni true c

theorem startsWith_cut {P : Nat → Prop} {z r r' : List Nat} {w : Nat} (h : ¬ StartsWith P (z ++ r)) (hw : ¬ P w) :
    ¬ StartsWith P (z ++ w :: r') := by
  rintro ⟨b, t, e, hb⟩
  cases z with
  | nil => simp at e; rw [e.1] at hw; exact hw hb
  | cons a z => simp at e; exact h ⟨a, z ++ r, rfl, by rw [e.1]; exact hb⟩

theorem prefix_cut {q u r r' : List Nat} {w : Nat} (hq : w ∉ q) (h : q <+: u ++ w :: r') : q <+: u ++ r := by
  have : q <+: u := by
    obtain ⟨t, e⟩ := h
    by_cases hl : q.length ≤ u.length
    · have := congrArg (List.take q.length) e
      rw [List.take_left, List.take_append_of_le_length hl] at this
      rw [this]; exact List.take_prefix _ _
    · exfalso
      have h1 : (q ++ t)[u.length]? = some w := by rw [e]; simp
      rw [List.getElem?_append_left (by omega)] at h1
      exact hq (List.mem_of_getElem? h1)
  exact this.trans (List.prefix_append _ _)

theorem noUni_cut {z r r' : List Nat} {w : Nat} (hw : Blank w) (hz : TokStart z) (h : NoUni false (z ++ r)) :
    NoUni false (z ++ w :: r') := by
  rintro ⟨b, t, e, hb⟩
  cases z with
  | nil =>
    simp only [List.nil_append, List.cons.injEq] at e
    exfalso; unfold Blank at hw; omega
  | cons a z =>
    simp only [List.cons_append, List.cons.injEq] at e
    have ha : 128 ≤ a := by rw [e.1]; exact hb
    obtain ⟨c, bs, z2, e1, h1, h2⟩ := hz ⟨a, z, rfl, ha⟩
    obtain ⟨c', bs', r0, e2, h3, h4⟩ := h ⟨a, z ++ r, rfl, ha⟩
    have : c = c' := loose_det h1 h3 (a := z2 ++ r) (a' := r0) (by rw [← e2, e1]; simp)
    subst this
    exact absurd (h2.elim Or.inl (fun h => by simp at h)) h4

theorem blank_not {w : Nat} (hw : Blank w) : ¬ IsIdAscii w ∧ ¬ IsSign w ∧ ¬ IsDigit w ∧ ¬ IsLetter w ∧ w ≠ 46 ∧ w ≠ 39 ∧ w ≠ 34 ∧ w ≠ 47 ∧ w ≠ 42 := by
  unfold Blank at hw
  unfold IsIdAscii IsSign IsLetter IsDigit
  omega

theorem identRun_cut {z r r' : List Nat} {w : Nat} (hw : Blank w) (hz : TokStart z) {first : Bool} {x rest : List Nat}
    (h : IdentRun first x rest) : rest = z ++ r → (first = false ∨ x ≠ []) → IdentRun first x (z ++ w :: r') := by
  induction h with
  | stop first rest h1 h2 =>
    rintro rfl hf
    have : first = false := by simpa using hf
    subst this
    exact .stop _ _ (startsWith_cut h1 (blank_not hw).1) (noUni_cut hw hz h2)
  | ascii first c x rest hc _ ih => intro e _; exact .ascii _ _ _ _ hc (ih e (.inl rfl))
  | uni first c bs x rest h1 h2 h3 _ ih => intro e _; exact .uni _ _ _ _ _ h1 h2 h3 (ih e (.inl rfl))

theorem ppRun_cut {z r r' : List Nat} {w : Nat} (hw : Blank w) (hz : TokStart z) {x rest : List Nat}
    (h : PpRun x rest) : rest = z ++ r → PpRun x (z ++ w :: r') := by
  obtain ⟨b1, b2, b3, b4, b5, b6, _⟩ := blank_not hw
  induction h with
  | stop rest h1 h2 h3 h4 =>
    rintro rfl
    refine .stop _ (startsWith_cut h1 b1) (startsWith_cut h2 b5) ?_ (noUni_cut hw hz h4)
    intro u e
    cases z with
    | nil => simp at e; exact absurd e.1 b6
    | cons a z =>
      simp only [List.cons_append, List.cons.injEq] at e
      obtain ⟨rfl, rfl⟩ := e
      exact startsWith_cut (h3 (z ++ r) rfl) (fun h => h.elim b4 b3)
  | dot x rest _ ih => intro e; exact .dot _ _ (ih e)
  | sep c x rest hc _ ih => intro e; exact .sep _ _ _ hc (ih e)
  | exp a s x rest ha hs _ ih => intro e; exact .exp _ _ _ _ ha hs (ih e)
  | ascii c x rest hc hne _ ih =>
    intro e
    refine .ascii _ _ _ hc ?_ (ih e)
    rintro ⟨h1, h2⟩
    subst e
    rw [← List.append_assoc] at h2 hne
    exact startsWith_cut (fun h => hne ⟨h1, h⟩) b2 h2
  | uni c bs x rest h1 h2 h3 _ ih => intro e; exact .uni _ _ _ _ h1 h2 h3 (ih e)

theorem no_blank_in_punct {w : Nat} (hw : Blank w) : ∀ q ∈ punctuators, w ∉ q := by
  have h32 : ∀ q ∈ punctuators, (32 : Nat) ∉ q := by decide
  have h10 : ∀ q ∈ punctuators, (10 : Nat) ∉ q := by decide
  rcases hw with rfl | rfl
  · exact h32
  · exact h10

/-- A token stays one when what follows is cut off by a blank. -/
theorem tokenText_cut {k : Kind} {v : Val} {x z r r' : List Nat} {w : Nat} (hw : Blank w) (hz : TokStart z)
    (h : TokenText k v x (z ++ r)) : TokenText k v x (z ++ w :: r') := by
  obtain ⟨b1, b2, b3, b4, b5, b6, b7, b8, b9⟩ := blank_not hw
  generalize hrest : z ++ r = rest at h
  cases h with
  | num pre d y _ hp hd hrun => exact .num pre d y _ hp hd (ppRun_cut hw hz hrun hrest.symm)
  | punct _ _ hne hl hc hd =>
    subst hrest
    rw [← List.append_assoc] at hl hc hd
    refine .punct _ _ hne ⟨?_, ?_⟩ ?_ ?_ <;> rw [← List.append_assoc]
    · rcases hl.1 with h0 | ⟨q, hq, hp, hlq⟩
      · exact .inl h0
      · refine .inr ⟨q, hq, ?_, hlq⟩
        have : q <+: x := by
          rw [List.append_assoc] at hp
          exact List.prefix_of_prefix_length_le hp (List.prefix_append x (z ++ r)) (by omega)
        exact this.trans (by rw [List.append_assoc]; exact List.prefix_append _ _)
    · intro q hq hp
      exact hl.2 q hq (prefix_cut (no_blank_in_punct hw q hq) hp)
    · rintro (h | h)
      · exact hc (.inl (prefix_cut (by simp; omega) h))
      · exact hc (.inr (prefix_cut (by simp; omega) h))
    · intro u e
      cases hxz : x ++ z with
      | nil => rw [List.append_eq_nil_iff] at hxz; exact absurd hxz.1 hne
      | cons a l =>
        rw [hxz] at e hd
        simp only [List.cons_append, List.cons.injEq] at e
        obtain ⟨rfl, rfl⟩ := e
        exact startsWith_cut (hd (l ++ r) rfl) b3
  | str pre e t us _ hp hb => exact .str pre e t us _ hp hb
  | chr pre ty v b junk _ hp hb hj => exact .chr pre ty v b junk _ hp hb hj
  | ident _ _ hne hr hd hl =>
    refine .ident _ _ hne (identRun_cut hw hz hr hrest.symm (.inr hne)) hd ?_
    subst hrest
    rw [← List.append_assoc] at hl ⊢
    rintro (⟨p, hp, h⟩ | ⟨p, hp, h⟩)
    · refine hl (.inl ⟨p, hp, prefix_cut ?_ h⟩)
      have h32 : ∀ p ∈ strPrefixes, (32 : Nat) ∉ p.1 ++ [34] ∧ (10 : Nat) ∉ p.1 ++ [34] := by decide
      rcases hw with rfl | rfl
      · exact (h32 p hp).1
      · exact (h32 p hp).2
    · refine hl (.inr ⟨p, hp, prefix_cut ?_ h⟩)
      have h32 : ∀ p ∈ chrPrefixes, (32 : Nat) ∉ p.1 ++ [39] ∧ (10 : Nat) ∉ p.1 ++ [39] := by decide
      rcases hw with rfl | rfl
      · exact (h32 p hp).1
      · exact (h32 p hp).2

/-- A token that begins with a byte above 127 begins with an identifier character. -/
theorem tokenText_start {k : Kind} {v : Val} {y rest u : List Nat} (c : TokenText k v y rest) : TokStart (y ++ u) := by
  rintro ⟨b, t, e, hb⟩
  have hne := tokenText_ne c
  cases y with
  | nil => exact absurd rfl hne
  | cons b' y =>
    simp only [List.cons_append, List.cons.injEq] at e
    obtain ⟨rfl, rfl⟩ := e
    generalize hyy : (b' :: y) = yy at c
    cases c with
    | num pre d z _ hp hd =>
      exfalso
      unfold IsDigit at hd
      rcases hp with rfl | rfl <;> simp at hyy <;> omega
    | punct _ _ _ hl _ _ =>
      exfalso
      rw [← hyy] at hl
      rcases hl.1 with h0 | ⟨q, hq, hp, hl⟩
      · simp at h0
      · have hall : ∀ q ∈ punctuators, q.headD 200 < 128 := by decide
        have := hall q hq
        cases q with
        | nil => simp at hl
        | cons q0 q =>
          rw [List.cons_append, List.cons_prefix_cons] at hp
          rw [hp.1] at this; simp at this; omega
    | str pre e t us _ hp =>
      exfalso
      rcases strPre_cases hp with ⟨rfl, _⟩ | ⟨rfl, _⟩ | ⟨rfl, _⟩ | ⟨rfl, _⟩ | ⟨rfl, _⟩ <;> simp at hyy <;> omega
    | chr pre e t us _ _ hp =>
      exfalso
      rcases chrPre_cases hp with ⟨rfl, _⟩ | ⟨rfl, _⟩ | ⟨rfl, _⟩ | ⟨rfl, _⟩ <;> simp at hyy <;> omega
    | ident _ _ _ hr =>
      rw [← hyy] at hr
      generalize hz : (b' :: y) = z at hr
      cases hr with
      | stop => cases hz
      | ascii _ c z _ hc =>
        injection hz with hz1 hz2; subst hz1
        exfalso; unfold IsIdAscii IsLetter IsDigit at hc; omega
      | uni _ c bs z _ hl h2 h3 => exact ⟨c, bs, z ++ u, by rw [← List.append_assoc, ← hz, hyy], hl, h3⟩

/-! ### Texts made of tokens and blanks -/

structure Piece where
  gap : List Nat
  kind : Kind
  val : Val
  text : List Nat

def glue : List Piece → List Nat → List Nat
  | [], e => e
  | p :: l, e => p.gap ++ (p.text ++ glue l e)

def adj : List Piece → List Nat
  | [] => []
  | p :: l => if p.gap = [] then p.text ++ adj l else []

def Read : List Piece → Prop
  | [] => True
  | p :: l => (∀ b ∈ p.gap, Blank b) ∧ (∃ r, TokenText p.kind p.val p.text (adj l ++ r)) ∧ Read l

theorem glue_adj {e : List Nat} (he : e ≠ []) (hb : ∀ b ∈ e, Blank b) : ∀ l : List Piece, Read l →
    ∃ w r, Blank w ∧ glue l e = adj l ++ w :: r
  | [], _ => by
    cases e with
    | nil => exact absurd rfl he
    | cons w r => exact ⟨w, r, hb w (by simp), rfl⟩
  | p :: l, h => by
    rw [Read] at h
    rw [glue, adj]
    split
    · next hg =>
      obtain ⟨w, r, hw, e1⟩ := glue_adj he hb l h.2.2
      exact ⟨w, r, hw, by rw [hg, e1]; simp⟩
    · next hg =>
      cases hpg : p.gap with
      | nil => exact absurd hpg hg
      | cons w g => exact ⟨w, g ++ (p.text ++ glue l e), h.1 w (by rw [hpg]; simp), rfl⟩

theorem adj_start : ∀ l : List Piece, Read l → TokStart (adj l)
  | [], _ => by rintro ⟨b, t, e, _⟩; cases e
  | p :: l, h => by
    rw [Read] at h
    rw [adj]
    split
    · obtain ⟨r, hr⟩ := h.2.1
      exact tokenText_start hr
    · rintro ⟨b, t, e, _⟩; cases e

theorem glue_token {e : List Nat} (he : e ≠ []) (hb : ∀ b ∈ e, Blank b) {p : Piece} {l : List Piece} (h : Read (p :: l)) :
    TokenText p.kind p.val p.text (glue l e) := by
  rw [Read] at h
  obtain ⟨r, hr⟩ := h.2.1
  obtain ⟨w, r', hw, e1⟩ := glue_adj he hb l h.2.2
  rw [e1]
  exact tokenText_cut hw (adj_start l h.2.2) hr

/-- White space since the last newline. -/
def spAfter : Bool → List Nat → Bool
  | sp, [] => sp
  | _, 10 :: g => spAfter false g
  | _, _ :: g => spAfter true g

def bolAfter (bol : Bool) (g : List Nat) : Bool := bol || g.any (· == 10)

theorem layout_blanks (t : List Nat) (ts : List Tok) : ∀ (g : List Nat) (pos line : Nat) (bol sp : Bool), (∀ b ∈ g, Blank b) →
    Layout (pos + g.length) (line + g.count 10) (bolAfter bol g) (spAfter sp g) t ts →
    Layout pos line bol sp (g ++ t) ts
  | [], pos, line, bol, sp, _, h => by simpa [bolAfter, spAfter] using h
  | b :: g, pos, line, bol, sp, hb, h => by
    rcases hb b (by simp) with rfl | rfl
    · refine .white _ _ _ _ 32 _ _ (.inl rfl) (layout_blanks t ts g _ _ _ _ (fun b h => hb b (by simp [h])) ?_)
      have e : pos + 1 + g.length = pos + (32 :: g).length := by simp; omega
      simpa [e, bolAfter, spAfter, List.count_cons] using h
    · refine .newline _ _ _ _ _ _ (layout_blanks t ts g _ _ _ _ (fun b h => hb b (by simp [h])) ?_)
      have e : pos + 1 + g.length = pos + (10 :: g).length := by simp; omega
      have e2 : line + 1 + g.count 10 = line + (10 :: g).count 10 := by simp; omega
      rw [e, e2]
      simpa [bolAfter, spAfter] using h

/-- The tokens of such a text. -/
def expect : Bool → Bool → List Piece → List Nat → List View
  | _, sp, [], e => [⟨.eof, .none, [], true, spAfter sp e⟩]
  | bol, sp, p :: l, e => ⟨p.kind, p.val, p.text, bolAfter bol p.gap, spAfter sp p.gap⟩ :: expect false false l e

theorem layout_glue {e : List Nat} (he : e ≠ []) (hb : ∀ b ∈ e, Blank b) : ∀ (l : List Piece) (pre : List Nat) (line : Nat) (bol sp : Bool),
    Read l → ∃ ts, Layout pre.length line bol sp (glue l e) ts ∧ views (pre ++ glue l e) ts = expect bol sp l e
  | [], pre, line, bol, sp, _ => by
    refine ⟨[{ kind := .eof, loc := pre.length + e.length, len := 0, atBol := true, hasSpace := spAfter sp e, val := .none,
               lineNo := line + e.count 10 }], ?_, ?_⟩
    · have := layout_blanks [] _ e pre.length line bol sp hb (.eof _ _ _ _)
      simpa [glue] using this
    · simp [views, expect]
  | p :: l, pre, line, bol, sp, h => by
    have htok := glue_token he hb h
    rw [Read] at h
    obtain ⟨ts, h1, h2⟩ := layout_glue he hb l (pre ++ p.gap ++ p.text) (line + p.gap.count 10 + p.text.count 10) false false h.2.2
    refine ⟨{ kind := p.kind, loc := pre.length + p.gap.length, len := p.text.length, atBol := bolAfter bol p.gap,
              hasSpace := spAfter sp p.gap, val := p.val, lineNo := line + p.gap.count 10 } :: ts, ?_, ?_⟩
    · rw [glue]
      refine layout_blanks _ _ p.gap pre.length line bol sp h.1 (.token _ _ _ _ _ _ _ _ _ htok ?_)
      have e1 : (pre ++ p.gap ++ p.text).length = pre.length + p.gap.length + p.text.length := by simp; omega
      rw [← e1]; exact h1
    · have e1 : pre ++ glue (p :: l) e = (pre ++ p.gap ++ p.text) ++ glue l e := by rw [glue]; simp
      rw [expect, ← h2, ← e1]
      have e2 : pre ++ glue (p :: l) e = (pre ++ p.gap) ++ (p.text ++ glue l e) := by rw [glue]; simp
      have e3 : ((pre ++ glue (p :: l) e).drop (pre.length + p.gap.length)).take p.text.length = p.text := by
        rw [e2, ← List.length_append, List.drop_left, List.take_left]
      simp only [views, List.map_cons, e3]

end Slimcc.PrintTok
