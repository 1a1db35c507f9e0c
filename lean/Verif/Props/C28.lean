import Verif.Lemmas.MacroArgs
/-!
C28: macro arguments are split at top-level commas only.

`readArgs strict m ts` reads from the token after the opening parenthesis; its result is the arguments,
`omit_comma` (the variable arguments are missing, so that `, ## __VA_ARGS__` vanishes), and the tokens
after the closing parenthesis.
-/
set_option autoImplicit false
namespace Slimcc.Props
open Slimcc Slimcc.PP Slimcc.Mac Slimcc.MacL Slimcc.Spec

theorem close_skip (ts rest : List PTok) : skip rpar ts = .done rest ↔ ∃ c, ts = c :: rest ∧ IsClose c := skip_iff _ _ _

theorem readArgs_iff (strict : Bool) (m : Macro) (ts : List PTok) (args : List (List PTok)) (o : Bool) (rest : List PTok) :
    readArgs strict m ts = .done (args, o, rest) ↔
    ∃ c, IsClose c ∧ readArgsFrom strict m.vaArg m.params.length 0 false ts = .done (args, o, c :: rest) := by
  unfold readArgs
  rw [bind_done_iff]
  constructor
  · rintro ⟨⟨a, b, d⟩, h1, h2⟩
    obtain ⟨x, h3, h4⟩ := (bind_done_iff _ _ _).1 h2
    cases h4
    obtain ⟨c, e, h5⟩ := (close_skip _ _).1 h3
    have e' : d = c :: rest := e
    exact ⟨c, h5, by rw [h1, e']⟩
  · rintro ⟨c, h1, h2⟩
    refine ⟨_, h2, (bind_done_iff _ _ _).2 ⟨rest, ?_, rfl⟩⟩
    exact (close_skip _ _).2 ⟨c, rfl, h1⟩

/-- A macro that is not variadic: an invocation is accepted exactly if the text up to the matching
parenthesis is the right number of arguments separated by commas, and these are the arguments. -/
theorem C28_fixed (strict : Bool) (m : Macro) (hm : m.vaArg = false) (ts : List PTok) (args : List (List PTok)) (o : Bool) (rest : List PTok) :
    readArgs strict m ts = .done (args, o, rest) ↔
    o = false ∧ ∃ text c, ts = text ++ c :: rest ∧ IsClose c ∧ FixedArgs m.params.length args text := by
  rw [readArgs_iff, hm]
  constructor
  · rintro ⟨c, hc, h⟩
    have := (args_fixed strict false m.params.length 0 0 false ts args o (c :: rest) (fun h => (nomatch h)) (fun _ => ⟨c, rest, rfl, .inl hc⟩)).1 (by rwa [Nat.zero_add])
    obtain ⟨as1, as2, ts2, rfl, h1, h2, h3, _, h5⟩ := this
    rw [readArgsFrom] at h5
    cases h5
    refine ⟨rfl, ?_⟩
    rw [List.append_nil]
    by_cases hz : m.params.length = 0
    · rw [hz] at h1
      have := List.length_eq_zero_iff.1 h1
      subst this
      exact ⟨[], c, h3, hc, hz.symm, h2, by rw [if_pos hz]⟩
    · cases as1 with
      | nil => exact absurd h1.symm hz
      | cons a as =>
        obtain ⟨body, g1, g2⟩ := (chain_commas as a ts _).1 h3
        exact ⟨body, c, g2, hc, h1, h2, by rw [if_neg hz]; exact g1⟩
  · rintro ⟨rfl, text, c, rfl, hc, h1, h2, h3⟩
    refine ⟨c, hc, ?_⟩
    have := (args_fixed strict false m.params.length 0 0 false (text ++ c :: rest) args false (c :: rest) (fun h => (nomatch h)) (fun _ => ⟨c, rest, rfl, .inl hc⟩)).2
    rw [Nat.zero_add] at this
    refine this ⟨args, [], c :: rest, by simp, h1, h2, ?_, fun _ => ⟨c, rest, rfl, .inl hc⟩, by rw [readArgsFrom]⟩
    cases args with
    | nil =>
      rw [← h1] at h3
      have : text = [] := h3
      rw [this]; rfl
    | cons a as =>
      rw [if_neg (by rw [← h1]; simp)] at h3
      exact (chain_commas as a _ _).2 ⟨text, h3, rfl⟩

/-- A variadic macro: the last parameter takes the rest of the text with its commas; it may be missing
together with its comma, and then `, ## __VA_ARGS__` vanishes. With a single parameter "missing" and
"empty" are the same; the comma then vanishes unless a standard is selected. -/
theorem C28_variadic (strict : Bool) (m : Macro) (hm : m.vaArg = true) (hn : m.params ≠ []) (ts : List PTok) (args : List (List PTok))
    (o : Bool) (rest : List PTok) :
    readArgs strict m ts = .done (args, o, rest) ↔
    ∃ text c omitted, ts = text ++ c :: rest ∧ IsClose c ∧ VarArgs m.params.length args omitted text ∧
      o = (if m.params.length = 1 then text.isEmpty && !strict else omitted) := by
  obtain ⟨k, hk⟩ : ∃ k, m.params.length = 1 + k := ⟨m.params.length - 1, by
    have : 0 < m.params.length := List.length_pos_iff.2 hn
    omega⟩
  rw [readArgs_iff, hm, hk]
  constructor
  · rintro ⟨c, hc, h⟩
    obtain ⟨as1, as2, ts2, rfl, h1, h2, h3, _, h5⟩ := (args_fixed strict true k 1 0 false ts args o (c :: rest) (fun _ => by decide) (fun h => (nomatch h))).1 h
    obtain ⟨a, rfl, g1, ⟨t, r, e, g2⟩, g3⟩ := (args_va strict (0 + k) false ts2 as2 o (c :: rest)).1 h5
    rw [Nat.zero_add] at g3
    cases e
    by_cases hp : isText rpar ts2 = true
    · rw [if_pos hp] at g3
      obtain ⟨rfl, rfl, rfl⟩ := g3
      cases as1 with
      | nil =>
        have hk0 : k = 0 := h1.symm
        subst hk0
        refine ⟨[], c, true, h3, hc, ⟨[], [], rfl, rfl, by simp, .nil, by simp⟩, by simp⟩
      | cons b bs =>
        obtain ⟨body, e1, e2⟩ := (chain_commas bs b ts _).1 h3
        refine ⟨body, c, true, e2, hc, ⟨b :: bs, [], rfl, by simp at h1 ⊢; omega, h2, .nil, ?_⟩, ?_⟩
        · rw [if_pos rfl, if_neg (by simp)]; exact ⟨rfl, e1⟩
        · simp only [List.length_cons] at h1
          rw [if_neg (by omega)]
          have : (k == 0) = false := by simp; omega
          rw [this]; simp
    · rw [if_neg hp] at g3
      obtain ⟨rfl, g3⟩ := g3
      have hch : Chain 0 (as1 ++ [a]) ts (c :: rest) := by
        have key : ∀ (as : List (List PTok)) (i : Nat) (ts : List PTok), as.length + i = k → Chain i as ts ts2 → Chain i (as ++ [a]) ts (c :: rest) := by
          intro as
          induction as with
          | nil =>
            intro i ts hi h
            have h' : ts = ts2 := h
            have hik : i = k := by simpa using hi
            exact ⟨c :: rest, by rw [h', hik]; exact g3, rfl⟩
          | cons x xs ih =>
            rintro i ts hi ⟨ts1, e1, e2⟩
            exact ⟨ts1, e1, ih (i + 1) ts1 (by simp at hi; omega) e2⟩
        exact key as1 0 ts (by omega) h3
      obtain ⟨b, bs, hb⟩ : ∃ b bs, as1 ++ [a] = b :: bs := by cases as1 <;> exact ⟨_, _, rfl⟩
      rw [hb] at hch
      obtain ⟨body, e1, e2⟩ := (chain_commas bs b ts _).1 hch
      refine ⟨body, c, false, e2, hc, ⟨as1, a, rfl, by simp; omega, h2, g1, by simp only [Bool.false_eq_true, if_false]; rw [hb]; exact e1⟩, ?_⟩
      by_cases hk0 : k = 0
      · subst hk0
        have : as1 = [] := List.length_eq_zero_iff.1 h1
        subst this
        cases h3
        cases hb
        cases e1 with
        | one =>
          cases a with
          | nil => rw [e2] at hp; exact absurd (by simp [isText]; exact hc) hp
          | cons _ _ => simp
        | more _ _ _ _ _ h => cases h
      · rw [if_neg (by omega)]
  · rintro ⟨text, c, omitted, rfl, hc, ⟨fixed, va, rfl, h1, h2, h3, h4⟩, h5⟩
    refine ⟨c, hc, ?_⟩
    have hfl : fixed.length = k := by simp at h1; omega
    refine (args_fixed strict true k 1 0 false _ _ o (c :: rest) (fun _ => by decide) (fun h => (nomatch h))).2 ?_
    cases omitted with
    | true =>
      rw [if_pos rfl] at h4
      obtain ⟨rfl, h4⟩ := h4
      refine ⟨fixed, [[]], c :: rest, rfl, hfl, h2, ?_, fun _ => ⟨c, rest, rfl, .inl hc⟩, ?_⟩
      · cases fixed with
        | nil => rw [if_pos rfl] at h4; rw [h4]; rfl
        | cons b bs => rw [if_neg (by simp)] at h4; exact (chain_commas bs b _ _).2 ⟨text, h4, rfl⟩
      · refine (args_va strict _ false _ _ o (c :: rest)).2 ⟨[], rfl, .nil, ⟨c, rest, rfl, hc⟩, ?_⟩
        rw [if_pos (by simp [isText]; exact hc)]
        refine ⟨rfl, rfl, ?_⟩
        rw [h5, Nat.zero_add]
        by_cases hk0 : k = 0
        · subst hk0
          have : fixed = [] := List.length_eq_zero_iff.1 hfl
          subst this
          rw [if_pos rfl] at h4
          rw [h4]; simp
        · rw [if_neg (by omega)]
          have : (k == 0) = false := by simp; omega
          rw [this]; simp
    | false =>
      simp only [Bool.false_eq_true, if_false] at h4
      obtain ⟨b, bs, hb⟩ : ∃ b bs, fixed ++ [va] = b :: bs := by cases fixed <;> exact ⟨_, _, rfl⟩
      have hch : Chain 0 (fixed ++ [va]) (text ++ c :: rest) (c :: rest) := by
        rw [hb]; rw [hb] at h4
        exact (chain_commas bs b _ _).2 ⟨text, h4, rfl⟩
      have key : ∀ (as : List (List PTok)) (i : Nat) (ts : List PTok), as.length + i = k → Chain i (as ++ [va]) ts (c :: rest) →
          ∃ ts2, Chain i as ts ts2 ∧ Lead k ts2 (va ++ c :: rest) := by
        intro as
        induction as with
        | nil =>
          rintro i ts hi ⟨ts1, e1, e2⟩
          cases e2
          have hik : i = k := by simpa using hi
          exact ⟨ts, rfl, hik ▸ e1⟩
        | cons x xs ih =>
          rintro i ts hi ⟨ts1, e1, e2⟩
          obtain ⟨ts2, g1, g2⟩ := ih (i + 1) ts1 (by simp at hi; omega) e2
          exact ⟨ts2, ⟨ts1, e1, g1⟩, g2⟩
      obtain ⟨ts2, g1, g2⟩ := key fixed 0 _ (by omega) hch
      refine ⟨fixed, [va], ts2, rfl, hfl, h2, g1, fun hk0 => ?_, ?_⟩
      · unfold Lead at g2
        rw [if_neg hk0] at g2
        obtain ⟨d, hd, e⟩ := g2
        exact ⟨d, _, e, .inr ⟨rfl, hd⟩⟩
      · refine (args_va strict _ false _ _ o (c :: rest)).2 ⟨va, rfl, h3, ⟨c, rest, rfl, hc⟩, ?_⟩
        rw [Nat.zero_add]
        by_cases hk0 : k = 0
        · subst hk0
          have : fixed = [] := List.length_eq_zero_iff.1 hfl
          subst this
          cases g1
          have e : text ++ c :: rest = va ++ c :: rest := g2
          have e' : text = va := List.append_cancel_right e
          subst e'
          rw [if_pos rfl] at h5
          cases text with
          | nil =>
            rw [if_pos (by simp [isText]; exact hc)]
            exact ⟨rfl, rfl, by rw [h5]; simp⟩
          | cons x xs =>
            have hx : isText rpar (x :: xs ++ c :: rest) = false := by
              cases h3 with
              | tok _ _ _ h _ => simp [isText]; exact h
              | paren _ _ _ _ h _ _ _ => simp [isText]; rw [show x.text = [40] from h]; decide
            rw [hx, if_neg (by simp)]
            exact ⟨by rw [h5]; simp, g2⟩
        · rw [if_neg (by omega)] at h5
          have hx : isText rpar ts2 = false := by
            unfold Lead at g2
            rw [if_neg hk0] at g2
            obtain ⟨d, hd, e⟩ := g2
            rw [e]
            simp only [isText]
            rw [show d.text = [44] from hd]; decide
          rw [hx, if_neg (by simp)]
          exact ⟨h5, g2⟩

theorem readArgOne_ends (rr : Bool) : ∀ (ts : List PTok) (k : Nat), (∃ p, readArgOne rr k ts = .done p) ∨ readArgOne rr k ts = .fail
  | [], k => .inr rfl
  | t :: r, k => by
    rw [readArgOne]
    split
    · exact .inl ⟨_, rfl⟩
    · split
      · exact .inl ⟨_, rfl⟩
      · rcases readArgOne_ends rr r (if t.text = lpar then k + 1 else if t.text = rpar then k - 1 else k) with ⟨p, h⟩ | h
        · rw [h]; exact .inl ⟨_, rfl⟩
        · rw [h]; exact .inr rfl

theorem skip_ends (s : Name) (ts : List PTok) : (∃ p, skip s ts = .done p) ∨ skip s ts = .fail := by
  cases ts with
  | nil => exact .inr rfl
  | cons t r =>
    rw [skip]
    split
    · exact .inl ⟨_, rfl⟩
    · exact .inr rfl

theorem readArgsFrom_ends (strict va : Bool) : ∀ (cnt idx : Nat) (o : Bool) (ts : List PTok),
    (∃ p, readArgsFrom strict va cnt idx o ts = .done p) ∨ readArgsFrom strict va cnt idx o ts = .fail
  | 0, idx, o, ts => .inl ⟨_, rfl⟩
  | cnt + 1, idx, o, ts => by
    rw [readArgsFrom]
    have lead : (∃ p, (if (va && cnt == 0) && isText rpar ts then .done (!(strict && idx == 0), ts)
      else if idx ≠ 0 then do let ts ← skip comma ts; .done (o, ts)
      else .done (o, ts) : Run (Bool × List PTok)) = .done p) ∨ (if (va && cnt == 0) && isText rpar ts then .done (!(strict && idx == 0), ts)
      else if idx ≠ 0 then do let ts ← skip comma ts; .done (o, ts)
      else .done (o, ts) : Run (Bool × List PTok)) = .fail := by
      split
      · exact .inl ⟨_, rfl⟩
      · split
        · rcases skip_ends comma ts with ⟨p, h⟩ | h
          · rw [h]; exact .inl ⟨_, rfl⟩
          · rw [h]; exact .inr rfl
        · exact .inl ⟨_, rfl⟩
    rcases lead with ⟨⟨o1, ts1⟩, h⟩ | h
    · dsimp only
      rw [h]
      dsimp only [Run.bind_done]
      rcases readArgOne_ends (va && cnt == 0) ts1 0 with ⟨⟨a, ts2⟩, h2⟩ | h2
      · rw [h2]
        rcases readArgsFrom_ends strict va cnt (idx + 1) o1 ts2 with ⟨⟨as, o2, ts3⟩, h3⟩ | h3
        · rw [Run.bind_done]; dsimp only; rw [h3]; exact .inl ⟨_, rfl⟩
        · rw [Run.bind_done]; dsimp only; rw [h3]; exact .inr rfl
      · rw [h2]; exact .inr rfl
    · dsimp only; rw [h]; exact .inr rfl

/-- Every other text is diagnosed: too few or too many arguments, or no matching parenthesis. -/
theorem C28_diagnosed (strict : Bool) (m : Macro) (ts : List PTok) (h : ∀ p, readArgs strict m ts ≠ .done p) : readArgs strict m ts = .fail := by
  unfold readArgs at h ⊢
  rcases readArgsFrom_ends strict m.vaArg m.params.length 0 false ts with ⟨⟨as, o, ts'⟩, h2⟩ | h2
  · rw [h2] at h ⊢
    rw [Run.bind_done] at h ⊢
    dsimp only at h ⊢
    rcases skip_ends rpar ts' with ⟨p, h3⟩ | h3
    · rw [h3] at h; exact absurd rfl (h _)
    · rw [h3]; rfl
  · rw [h2]; rfl

/-- The tokens of an invocation: they are those up to the matching parenthesis, unchanged but for the
mark on names that must not be expanded, and the rest of the text is what follows. -/
theorem C28_extent (E : Mac.Env) (outer : List Name) (locks locks' : Locks) (ts as rest : List PTok)
    (h : prepare E outer 0 locks ts = .done (as, rest, locks')) :
    ∃ text c, ts = text ++ c :: rest ∧ IsClose c ∧ Nested text ∧
      as.map (fun t => { t with noExpand := false }) = (text ++ [c]).map (fun t => { t with noExpand := false }) := by
  have paintEq : ∀ locks t, ({ paint E outer locks t with noExpand := false } : PTok) = { t with noExpand := false } := by
    intro locks t
    unfold paint
    split <;> rfl
  have key : ∀ (ts : List PTok) (k : Nat) (locks locks' : Locks) (as rest : List PTok), prepare E outer k locks ts = .done (as, rest, locks') →
      ∃ text c, ts = text ++ c :: rest ∧ IsClose c ∧ Lv true k text ∧
      as.map (fun t => { t with noExpand := false }) = (text ++ [c]).map (fun t => { t with noExpand := false }) := by
    intro ts
    induction ts with
    | nil => intro k locks locks' as rest h; rw [prepare] at h; cases h
    | cons t r ih =>
      intro k locks locks' as rest h
      rw [prepare] at h
      dsimp only at h
      by_cases h1 : k = 0 ∧ t.text = rpar
      · rw [if_pos h1] at h
        cases h
        refine ⟨[], t, rfl, h1.2, h1.1, ?_⟩
        simp only [List.map_cons, List.map_nil, List.nil_append, paintEq]
      · rw [if_neg h1] at h
        obtain ⟨⟨a, b, d⟩, h2, h3⟩ := (bind_done_iff _ _ _).1 h
        cases h3
        obtain ⟨text, c, e1, e2, e3, e4⟩ := ih _ _ _ _ _ h2
        refine ⟨t :: text, c, by rw [e1]; rfl, e2, ?_, ?_⟩
        · unfold Lv
          by_cases p1 : t.text = lpar
          · rw [if_pos p1] at e3 ⊢; exact e3
          · by_cases p2 : t.text = rpar
            · rw [if_neg p1, if_pos p2] at e3 ⊢; exact ⟨fun e => h1 ⟨e, p2⟩, e3⟩
            · rw [if_neg p1, if_neg p2] at e3 ⊢; exact ⟨fun _ e => (nomatch e), e3⟩
        · simp only [List.map_cons, List.cons_append, paintEq, e4]
  obtain ⟨text, c, h1, h2, h3, h4⟩ := key ts 0 locks locks' as rest h
  exact ⟨text, c, h1, h2, nested_of_lv _ text (Nat.le_refl _) h3, h4⟩

/-- The number of arguments and their extent do not depend on how the text goes on, so the text is cut in
one way only. -/
theorem C28_unique (n : Nat) (args args' : List (List PTok)) (text text' rest rest' : List PTok) (c c' : PTok) (hc : IsClose c) (hc' : IsClose c')
    (h : FixedArgs n args text) (h' : FixedArgs n args' text') (e : text ++ c :: rest = text' ++ c' :: rest') :
    args = args' ∧ rest = rest' := by
  let m : Macro := { isObj := false, params := List.replicate n [] }
  have hn : m.params.length = n := List.length_replicate
  have h1 := (C28_fixed false m rfl (text ++ c :: rest) args false rest).2 ⟨rfl, text, c, rfl, hc, by rw [hn]; exact h⟩
  have h2 := (C28_fixed false m rfl (text ++ c :: rest) args' false rest').2 ⟨rfl, text', c', e, hc', by rw [hn]; exact h'⟩
  rw [h1] at h2
  cases h2
  exact ⟨rfl, rfl⟩

/-- `f((1, 2), x)` has two arguments, `f(1, 2, 3)` is diagnosed for two parameters, and variable
arguments take `2, 3`. -/
def exPT (s : Name) : PTok := { kind := if s = lpar ∨ s = rpar ∨ s = comma then .punct else .ident, text := s, atBol := false, hasSpace := false }
example : readArgs false { isObj := false, params := [[97], [98]] } ([lpar, [49], comma, [50], rpar, comma, [120], rpar, [121]].map exPT) =
    .done ([[lpar, [49], comma, [50], rpar].map exPT, [exPT [120]]], false, [exPT [121]]) := by decide
example : readArgs false { isObj := false, params := [[97], [98]] } ([[49], comma, [50], comma, [51], rpar].map exPT) = .fail := by decide
example : readArgs false { isObj := false, params := [[97], [98]], vaArg := true } ([[49], comma, [50], comma, [51], rpar].map exPT) =
    .done ([[exPT [49]], [[50], comma, [51]].map exPT], false, []) := by decide
example : readArgs false { isObj := false, params := [[97], [98]], vaArg := true } ([[49], rpar].map exPT) =
    .done ([[exPT [49]], []], true, []) := by decide

end Slimcc.Props
