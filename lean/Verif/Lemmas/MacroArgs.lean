import Verif.Model.Macro
import Verif.Spec.Macro
set_option autoImplicit false
namespace Slimcc.MacL
open Slimcc Slimcc.PP Slimcc.Mac Slimcc.Spec

/-- Reading at level `k` goes through the list and ends at level 0. -/
def Lv (rr : Bool) : Nat → List PTok → Prop
  | k, [] => k = 0
  | k, t :: r =>
    if t.text = lpar then Lv rr (k + 1) r
    else if t.text = rpar then k ≠ 0 ∧ Lv rr (k - 1) r
    else (k = 0 → rr = false → t.text ≠ comma) ∧ Lv rr k r

def Stop (rr : Bool) (rest : List PTok) : Prop := ∃ t r, rest = t :: r ∧ (t.text = rpar ∨ (rr = false ∧ t.text = comma))

theorem readArgOne_cons (rr : Bool) (k : Nat) (t : PTok) (r a rest : List PTok) (h1 : ¬ (k = 0 ∧ t.text = rpar))
    (h2 : ¬ (k = 0 ∧ rr = false ∧ t.text = comma)) :
    readArgOne rr k (t :: r) = .done (a, rest) ↔
    ∃ a', a = t :: a' ∧ readArgOne rr (if t.text = lpar then k + 1 else if t.text = rpar then k - 1 else k) r = .done (a', rest) := by
  rw [readArgOne, if_neg h1, if_neg h2]
  cases h : readArgOne rr (if t.text = lpar then k + 1 else if t.text = rpar then k - 1 else k) r with
  | done p =>
    obtain ⟨x, y⟩ := p
    simp only [Run.bind_done, Run.done.injEq, Prod.mk.injEq]
    constructor
    · rintro ⟨rfl, rfl⟩; exact ⟨x, rfl, rfl, rfl⟩
    · rintro ⟨a', rfl, rfl, rfl⟩; exact ⟨rfl, rfl⟩
  | fail => simp
  | crash => simp
  | more => simp

theorem readArgOne_iff (rr : Bool) : ∀ (ts : List PTok) (k : Nat) (a rest : List PTok),
    readArgOne rr k ts = .done (a, rest) ↔ ts = a ++ rest ∧ Lv rr k a ∧ Stop rr rest
  | [], k, a, rest => by
    constructor
    · intro h; rw [readArgOne] at h; cases h
    · rintro ⟨h, _, t, r, e, _⟩
      rw [e] at h; simp at h
  | t :: r, k, a, rest => by
    by_cases h1 : k = 0 ∧ t.text = rpar
    · rw [readArgOne, if_pos h1]
      constructor
      · intro h; cases h; exact ⟨rfl, h1.1, t, r, rfl, .inl h1.2⟩
      · rintro ⟨h, hl, hs⟩
        cases a with
        | nil => rw [h]; rfl
        | cons x xs =>
          cases h
          unfold Lv at hl
          rw [if_neg (by rw [h1.2]; decide), if_pos h1.2] at hl
          exact absurd h1.1 hl.1
    · by_cases h2 : k = 0 ∧ rr = false ∧ t.text = comma
      · rw [readArgOne, if_neg h1, if_pos h2]
        constructor
        · intro h; cases h; exact ⟨rfl, h2.1, t, r, rfl, .inr h2.2⟩
        · rintro ⟨h, hl, hs⟩
          cases a with
          | nil => rw [h]; rfl
          | cons x xs =>
            cases h
            unfold Lv at hl
            rw [if_neg (by rw [h2.2.2]; decide), if_neg (by rw [h2.2.2]; decide)] at hl
            exact absurd h2.2.2 (hl.1 h2.1 h2.2.1)
      · rw [readArgOne_cons rr k t r a rest h1 h2]
        constructor
        · rintro ⟨a', rfl, h⟩
          obtain ⟨e, hl, hs⟩ := (readArgOne_iff rr r _ _ _).1 h
          refine ⟨by rw [e]; rfl, ?_, hs⟩
          unfold Lv
          by_cases p1 : t.text = lpar
          · rw [if_pos p1] at hl ⊢; exact hl
          · by_cases p2 : t.text = rpar
            · rw [if_neg p1, if_pos p2] at hl ⊢; exact ⟨fun e => h1 ⟨e, p2⟩, hl⟩
            · rw [if_neg p1, if_neg p2] at hl ⊢; exact ⟨fun e1 e2 e3 => h2 ⟨e1, e2, e3⟩, hl⟩
        · rintro ⟨e, hl, hs⟩
          cases a with
          | nil =>
            obtain ⟨u, v, e2, e3⟩ := hs
            rw [e2] at e; cases e
            have hk : k = 0 := hl
            rcases e3 with e3 | e3
            · exact absurd ⟨hk, e3⟩ h1
            · exact absurd ⟨hk, e3⟩ h2
          | cons x xs =>
            cases e
            refine ⟨xs, rfl, (readArgOne_iff rr _ _ _ _).2 ⟨rfl, ?_, hs⟩⟩
            unfold Lv at hl
            by_cases p1 : t.text = lpar
            · rw [if_pos p1] at hl ⊢; exact hl
            · by_cases p2 : t.text = rpar
              · rw [if_neg p1, if_pos p2] at hl ⊢; exact hl.2
              · rw [if_neg p1, if_neg p2] at hl ⊢; exact hl.2

theorem lv_nested {a : List PTok} (h : Nested a) : ∀ (rr : Bool) (k : Nat) (b : List PTok), (k ≠ 0 ∨ rr = true) → Lv rr k b → Lv rr k (a ++ b) := by
  induction h with
  | nil => intro rr k b _ h; exact h
  | tok t ts h1 h2 _ ih =>
    intro rr k b hk h
    show Lv rr k (t :: (ts ++ b))
    unfold Lv
    rw [if_neg (show ¬ t.text = lpar from h1), if_neg (show ¬ t.text = rpar from h2)]
    refine ⟨fun e1 e2 => ?_, ih rr k b hk h⟩
    rcases hk with hk | hk
    · exact absurd e1 hk
    · rw [e2] at hk; cases hk
  | paren o c a b ho hc _ _ iha ihb =>
    intro rr k d hk h
    rw [List.append_assoc]
    show Lv rr k (o :: (a ++ (c :: (b ++ d))))
    unfold Lv
    rw [if_pos (show o.text = lpar from ho)]
    refine iha rr (k + 1) _ (.inl (by omega)) ?_
    unfold Lv
    have hc' : c.text = [41] := hc
    rw [if_neg (by rw [hc']; decide), if_pos (show c.text = rpar from hc)]
    exact ⟨by omega, ihb rr k d hk h⟩

theorem lv_noTop {a : List PTok} (h : NoTopComma a) : ∀ (rr : Bool) (b : List PTok), Lv rr 0 b → Lv rr 0 (a ++ b) := by
  induction h with
  | nil => intro rr b h; exact h
  | tok t ts h1 h2 h3 _ ih =>
    intro rr b h
    show Lv rr 0 (t :: (ts ++ b))
    unfold Lv
    rw [if_neg (show ¬ t.text = lpar from h1), if_neg (show ¬ t.text = rpar from h2)]
    exact ⟨fun _ _ => h3, ih rr b h⟩
  | paren o c a b ho hc ha _ ihb =>
    intro rr d h
    rw [List.append_assoc]
    show Lv rr 0 (o :: (a ++ (c :: (b ++ d))))
    unfold Lv
    rw [if_pos (show o.text = lpar from ho)]
    refine lv_nested ha rr 1 _ (.inl (by omega)) ?_
    unfold Lv
    have hc' : c.text = [41] := hc
    rw [if_neg (by rw [hc']; decide), if_pos (show c.text = rpar from hc)]
    exact ⟨by omega, ihb rr d h⟩

theorem nested_append {a b : List PTok} (ha : Nested a) (hb : Nested b) : Nested (a ++ b) := by
  induction ha with
  | nil => exact hb
  | tok t ts h1 h2 _ ih => exact .tok _ _ h1 h2 ih
  | paren o c a b ho hc ha _ _ ih =>
    rw [List.append_assoc]
    exact Nested.paren o c a _ ho hc ha ih

theorem lv_succ (rr : Bool) : ∀ (n : Nat) (a : List PTok) (k : Nat), a.length ≤ n → Lv rr (k + 1) a →
    ∃ a1 c a2, a = a1 ++ c :: a2 ∧ IsClose c ∧ Nested a1 ∧ Lv rr k a2
  | n, [], k, _, h => by unfold Lv at h; cases h
  | 0, t :: r, k, hn, h => by simp at hn
  | n + 1, t :: r, k, hn, h => by
    unfold Lv at h
    have hn' : r.length ≤ n := by simpa using hn
    by_cases p1 : t.text = lpar
    · rw [if_pos p1] at h
      obtain ⟨r1, c1, r2, e1, h1, h2, h3⟩ := lv_succ rr n r (k + 1) hn' h
      have hr2 : r2.length ≤ n := by
        rw [e1] at hn'; simp at hn'; omega
      obtain ⟨s1, c2, s2, e2, g1, g2, g3⟩ := lv_succ rr n r2 k hr2 h3
      refine ⟨t :: r1 ++ c1 :: s1, c2, s2, ?_, g1, .paren t c1 r1 s1 p1 h1 h2 g2, g3⟩
      rw [e1, e2]; simp
    · by_cases p2 : t.text = rpar
      · rw [if_neg p1, if_pos p2] at h
        exact ⟨[], t, r, rfl, p2, .nil, h.2⟩
      · rw [if_neg p1, if_neg p2] at h
        obtain ⟨a1, c, a2, e, h1, h2, h3⟩ := lv_succ rr n r k hn' h.2
        exact ⟨t :: a1, c, a2, by rw [e]; rfl, h1, .tok _ _ p1 p2 h2, h3⟩

theorem noTop_of_lv : ∀ (n : Nat) (a : List PTok), a.length ≤ n → Lv false 0 a → NoTopComma a
  | _, [], _, _ => .nil
  | 0, t :: r, hn, _ => by simp at hn
  | n + 1, t :: r, hn, h => by
    unfold Lv at h
    have hn' : r.length ≤ n := by simpa using hn
    by_cases p1 : t.text = lpar
    · rw [if_pos p1] at h
      obtain ⟨r1, c1, r2, e1, h1, h2, h3⟩ := lv_succ false n r 0 hn' h
      rw [e1]
      refine .paren t c1 r1 r2 p1 h1 h2 (noTop_of_lv n r2 ?_ h3)
      rw [e1] at hn'; simp at hn'; omega
    · by_cases p2 : t.text = rpar
      · rw [if_neg p1, if_pos p2] at h; exact absurd rfl h.1
      · rw [if_neg p1, if_neg p2] at h
        exact .tok _ _ p1 p2 (h.1 rfl rfl) (noTop_of_lv n r hn' h.2)

theorem nested_of_lv : ∀ (n : Nat) (a : List PTok), a.length ≤ n → Lv true 0 a → Nested a
  | _, [], _, _ => .nil
  | 0, t :: r, hn, _ => by simp at hn
  | n + 1, t :: r, hn, h => by
    unfold Lv at h
    have hn' : r.length ≤ n := by simpa using hn
    by_cases p1 : t.text = lpar
    · rw [if_pos p1] at h
      obtain ⟨r1, c1, r2, e1, h1, h2, h3⟩ := lv_succ true n r 0 hn' h
      rw [e1]
      refine .paren t c1 r1 r2 p1 h1 h2 (nested_of_lv n r2 ?_ h3)
      rw [e1] at hn'; simp at hn'; omega
    · by_cases p2 : t.text = rpar
      · rw [if_neg p1, if_pos p2] at h; exact absurd rfl h.1
      · rw [if_neg p1, if_neg p2] at h
        exact .tok _ _ p1 p2 (nested_of_lv n r hn' h.2)

theorem NoTopComma.nested {a : List PTok} (h : NoTopComma a) : Nested a := by
  induction h with
  | nil => exact .nil
  | tok t ts h1 h2 _ _ ih => exact .tok _ _ h1 h2 ih
  | paren o c a b ho hc ha _ ihb => exact .paren o c a b ho hc ha ihb

/-- A fixed argument: it ends at the first comma or closing parenthesis of its own level. -/
theorem fixed_iff (ts a rest : List PTok) : readArgOne false 0 ts = .done (a, rest) ↔ ts = a ++ rest ∧ NoTopComma a ∧ Stop false rest := by
  rw [readArgOne_iff]
  constructor
  · rintro ⟨h1, h2, h3⟩; exact ⟨h1, noTop_of_lv _ a (Nat.le_refl _) h2, h3⟩
  · rintro ⟨h1, h2, h3⟩; refine ⟨h1, ?_, h3⟩; have := lv_noTop h2 false [] rfl; rwa [List.append_nil] at this

theorem var_iff (ts a rest : List PTok) : readArgOne true 0 ts = .done (a, rest) ↔ ts = a ++ rest ∧ Nested a ∧ ∃ t r, rest = t :: r ∧ IsClose t := by
  rw [readArgOne_iff]
  constructor
  · rintro ⟨h1, h2, t, r, e, h3⟩
    refine ⟨h1, nested_of_lv _ a (Nat.le_refl _) h2, t, r, e, ?_⟩
    rcases h3 with h3 | h3
    · exact h3
    · exact absurd h3.1 (by decide)
  · rintro ⟨h1, h2, t, r, e, h3⟩
    refine ⟨h1, ?_, t, r, e, .inl h3⟩
    have := lv_nested h2 true 0 [] (.inr rfl) rfl; rwa [List.append_nil] at this

end Slimcc.MacL

namespace Slimcc.MacL
open Slimcc Slimcc.PP Slimcc.Mac Slimcc.Spec

theorem bind_done_iff {α β : Type} (x : Run α) (f : α → Run β) (b : β) : (x >>= f) = .done b ↔ ∃ a, x = .done a ∧ f a = .done b := by
  cases x with
  | done a => simp
  | fail => simp
  | crash => simp
  | more => simp

theorem skip_iff (s : Name) (ts rest : List PTok) : skip s ts = .done rest ↔ ∃ t, ts = t :: rest ∧ t.text = s := by
  cases ts with
  | nil => simp [skip]
  | cons t r =>
    rw [skip]
    by_cases h : t.text = s
    · rw [if_pos h]
      constructor
      · intro e; cases e; exact ⟨t, rfl, h⟩
      · rintro ⟨t, e, _⟩; cases e; rfl
    · rw [if_neg h]
      constructor
      · intro e; cases e
      · rintro ⟨t, e, h2⟩; cases e; exact absurd h2 h

/-- What precedes argument `idx`. -/
def Lead (idx : Nat) (ts ts1 : List PTok) : Prop := if idx = 0 then ts = ts1 else ∃ c, IsComma c ∧ ts = c :: ts1

def Chain : Nat → List (List PTok) → List PTok → List PTok → Prop
  | _, [], ts, rest => ts = rest
  | idx, a :: as, ts, rest => ∃ ts1, Lead idx ts (a ++ ts1) ∧ Chain (idx + 1) as ts1 rest

theorem lead_iff {α : Type} (idx : Nat) (o : α) (ts : List PTok) (o1 : α) (ts1 : List PTok) :
    ((if idx ≠ 0 then do let ts ← skip comma ts; .done (o, ts) else .done (o, ts) : Run (α × List PTok)) = .done (o1, ts1)) ↔
    o1 = o ∧ Lead idx ts ts1 := by
  unfold Lead
  by_cases h : idx = 0
  · rw [if_neg (by simpa using h), if_pos h]
    constructor
    · intro e; cases e; exact ⟨rfl, rfl⟩
    · rintro ⟨rfl, rfl⟩; rfl
  · rw [if_pos h, if_neg h, bind_done_iff]
    constructor
    · rintro ⟨a, h1, h2⟩
      cases h2
      obtain ⟨t, e, h3⟩ := (skip_iff _ _ _).1 h1
      exact ⟨rfl, t, h3, e⟩
    · rintro ⟨rfl, c, h1, h2⟩
      exact ⟨ts1, (skip_iff _ _ _).2 ⟨c, h2, h1⟩, rfl⟩

theorem args_succ (strict va : Bool) (cnt idx : Nat) (o : Bool) (ts : List PTok) (as : List (List PTok)) (o' : Bool) (rest : List PTok)
    (hva : (va && cnt == 0) = false) :
    readArgsFrom strict va (cnt + 1) idx o ts = .done (as, o', rest) ↔
    ∃ a as' ts2, as = a :: as' ∧ Lead idx ts (a ++ ts2) ∧ NoTopComma a ∧ Stop false ts2 ∧
      readArgsFrom strict va cnt (idx + 1) o ts2 = .done (as', o', rest) := by
  rw [readArgsFrom]
  simp only [hva, Bool.false_and, Bool.false_eq_true, if_false]
  rw [bind_done_iff]
  constructor
  · rintro ⟨⟨o1, ts1⟩, h1, h2⟩
    obtain ⟨rfl, h1'⟩ := (lead_iff _ _ _ _ _).1 h1
    obtain ⟨⟨a, ts2⟩, h3, h4⟩ := (bind_done_iff _ _ _).1 h2
    obtain ⟨⟨as', o2, ts3⟩, h5, h6⟩ := (bind_done_iff _ _ _).1 h4
    cases h6
    obtain ⟨e, h7, h8⟩ := (fixed_iff _ _ _).1 h3
    exact ⟨a, as', ts2, rfl, (show ts1 = a ++ ts2 from e) ▸ h1', h7, h8, h5⟩
  · rintro ⟨a, as', ts2, rfl, h1, h2, h3, h4⟩
    refine ⟨(o, a ++ ts2), (lead_iff _ _ _ _ _).2 ⟨rfl, h1⟩, ?_⟩
    refine (bind_done_iff _ _ _).2 ⟨(a, ts2), (fixed_iff _ _ _).2 ⟨rfl, h2, h3⟩, ?_⟩
    exact (bind_done_iff _ _ _).2 ⟨(as', o', rest), h4, rfl⟩

theorem args_va (strict : Bool) (idx : Nat) (o : Bool) (ts : List PTok) (as : List (List PTok)) (o' : Bool) (rest : List PTok) :
    readArgsFrom strict true 1 idx o ts = .done (as, o', rest) ↔
    ∃ a, as = [a] ∧ Nested a ∧ (∃ t r, rest = t :: r ∧ IsClose t) ∧
      (if isText rpar ts = true then a = [] ∧ ts = rest ∧ o' = !(strict && idx == 0) else o' = o ∧ Lead idx ts (a ++ rest)) := by
  rw [readArgsFrom]
  simp only [Bool.true_and, BEq.rfl]
  rw [bind_done_iff]
  by_cases hp : isText rpar ts = true
  · simp only [hp, if_true]
    constructor
    · rintro ⟨⟨o1, ts1⟩, h1, h2⟩
      cases h1
      obtain ⟨⟨a, ts2⟩, h3, h4⟩ := (bind_done_iff _ _ _).1 h2
      obtain ⟨⟨as', o2, ts3⟩, h5, h6⟩ := (bind_done_iff _ _ _).1 h4
      cases h6
      rw [readArgsFrom] at h5; cases h5
      obtain ⟨e, h7, h8⟩ := (var_iff _ _ _).1 h3
      refine ⟨a, rfl, h7, h8, ?_⟩
      cases a with
      | nil => exact ⟨rfl, e, rfl⟩
      | cons x xs =>
        exfalso
        rw [show ts = x :: xs ++ ts2 from e] at hp
        have hx : x.text = rpar := by simpa [isText] using hp
        cases h7 with
        | tok _ _ _ h _ => exact h hx
        | paren _ _ _ _ h _ _ _ => rw [show x.text = [40] from h] at hx; cases hx
    · rintro ⟨a, rfl, h1, h2, rfl, rfl, rfl⟩
      refine ⟨(!(strict && idx == 0), ts), rfl, ?_⟩
      refine (bind_done_iff _ _ _).2 ⟨([], ts), (var_iff _ _ _).2 ⟨rfl, .nil, h2⟩, ?_⟩
      exact (bind_done_iff _ _ _).2 ⟨([], _, ts), rfl, rfl⟩
  · simp only [Bool.not_eq_true] at hp
    simp only [hp, Bool.false_eq_true, if_false]
    constructor
    · rintro ⟨⟨o1, ts1⟩, h1, h2⟩
      obtain ⟨rfl, h1'⟩ := (lead_iff _ _ _ _ _).1 h1
      obtain ⟨⟨a, ts2⟩, h3, h4⟩ := (bind_done_iff _ _ _).1 h2
      obtain ⟨⟨as', o2, ts3⟩, h5, h6⟩ := (bind_done_iff _ _ _).1 h4
      cases h6
      rw [readArgsFrom] at h5; cases h5
      obtain ⟨e, h7, h8⟩ := (var_iff _ _ _).1 h3
      exact ⟨a, rfl, h7, h8, rfl, (show ts1 = a ++ ts2 from e) ▸ h1'⟩
    · rintro ⟨a, rfl, h1, h2, rfl, h3⟩
      refine ⟨(o', a ++ rest), (lead_iff _ _ _ _ _).2 ⟨rfl, h3⟩, ?_⟩
      refine (bind_done_iff _ _ _).2 ⟨(a, rest), (var_iff _ _ _).2 ⟨rfl, h1, h2⟩, ?_⟩
      exact (bind_done_iff _ _ _).2 ⟨([], _, rest), rfl, rfl⟩

theorem chain_stop {idx : Nat} : ∀ {as : List (List PTok)} {ts rest : List PTok}, Chain (idx + 1) as ts rest → Stop false rest → Stop false ts
  | [], ts, rest, h, hs => by unfold Chain at h; rw [h]; exact hs
  | a :: as, ts, rest, h, hs => by
    unfold Chain Lead at h
    obtain ⟨ts1, h1, _⟩ := h
    rw [if_neg (by omega)] at h1
    obtain ⟨c, h2, h3⟩ := h1
    exact ⟨c, _, h3, .inr ⟨rfl, h2⟩⟩

/-- `k` fixed arguments come first. -/
theorem args_fixed (strict va : Bool) : ∀ (k cnt idx : Nat) (o : Bool) (ts : List PTok) (as : List (List PTok)) (o' : Bool) (rest : List PTok),
    (va = true → cnt ≠ 0) → (cnt = 0 → Stop false rest) →
    (readArgsFrom strict va (cnt + k) idx o ts = .done (as, o', rest) ↔
    ∃ as1 as2 ts2, as = as1 ++ as2 ∧ as1.length = k ∧ (∀ a ∈ as1, NoTopComma a) ∧ Chain idx as1 ts ts2 ∧ (k ≠ 0 → Stop false ts2) ∧
      readArgsFrom strict va cnt (idx + k) o ts2 = .done (as2, o', rest))
  | 0, cnt, idx, o, ts, as, o', rest, hva, hs => by
    constructor
    · intro h; exact ⟨[], as, ts, rfl, rfl, by simp, rfl, fun h => absurd rfl h, h⟩
    · rintro ⟨as1, as2, ts2, rfl, h1, _, h2, _, h3⟩
      cases as1 with
      | nil => cases h2; exact h3
      | cons _ _ => simp at h1
  | k + 1, cnt, idx, o, ts, as, o', rest, hva, hs => by
    have hv : (va && (cnt + k) == 0) = false := by
      cases va with
      | false => rfl
      | true => have := hva rfl; simp; omega
    rw [← Nat.add_assoc, args_succ strict va (cnt + k) idx o ts as o' rest hv]
    constructor
    · rintro ⟨a, as', ts2, rfl, h1, h2, h3, h4⟩
      obtain ⟨as1, as2, ts3, rfl, g1, g2, g3, g4, g5⟩ := (args_fixed strict va k cnt (idx + 1) o ts2 as' o' rest hva hs).1 h4
      refine ⟨a :: as1, as2, ts3, rfl, by simp [g1], ?_, ⟨ts2, h1, g3⟩, fun _ => ?_, ?_⟩
      · intro x hx
        rcases List.mem_cons.1 hx with rfl | hx
        · exact h2
        · exact g2 x hx
      · by_cases hk : k = 0
        · subst hk
          have : as1 = [] := List.length_eq_zero_iff.1 g1
          subst this
          cases g3; exact h3
        · exact g4 hk
      · rwa [show idx + (k + 1) = idx + 1 + k by omega]
    · rintro ⟨as1, as2, ts2, rfl, h1, h2, h3, h4, h5⟩
      cases as1 with
      | nil => simp at h1
      | cons a as1 =>
        obtain ⟨ts3, g1, g2⟩ := h3
        refine ⟨a, as1 ++ as2, ts3, rfl, g1, h2 a (by simp), chain_stop g2 (h4 (by omega)), ?_⟩
        refine (args_fixed strict va k cnt (idx + 1) o ts3 _ o' rest hva hs).2 ⟨as1, as2, ts2, rfl, by simpa using h1, fun x hx => h2 x (by simp [hx]), g2, fun _ => h4 (by omega), ?_⟩
        rwa [show idx + 1 + k = idx + (k + 1) by omega]

theorem chain_commas : ∀ (as : List (List PTok)) (a : List PTok) (ts rest : List PTok),
    Chain 0 (a :: as) ts rest ↔ ∃ body, Commas (a :: as) body ∧ ts = body ++ rest
  | as, a, ts, rest => by
    have later : ∀ (as : List (List PTok)) (i : Nat) (ts rest : List PTok), Chain (i + 1) as ts rest ↔
        ∀ a, ∃ body, Commas (a :: as) (a ++ body) ∧ ts = body ++ rest := by
      intro as
      induction as with
      | nil =>
        intro i ts rest
        constructor
        · intro h a; exact ⟨[], by rw [List.append_nil]; exact .one a, h⟩
        · intro h
          obtain ⟨body, h1, h2⟩ := h []
          rw [List.nil_append] at h1
          generalize hb : body = b at *
          cases h1 with
          | one => exact h2
          | more _ _ _ _ _ h => cases h
      | cons b bs ih =>
        intro i ts rest
        constructor
        · rintro ⟨ts1, h1, h2⟩ a
          unfold Lead at h1
          rw [if_neg (by omega)] at h1
          obtain ⟨c, hc, rfl⟩ := h1
          obtain ⟨body, g1, rfl⟩ := (ih (i + 1) ts1 rest).1 h2 b
          exact ⟨c :: (b ++ body), .more a c _ _ hc g1, by simp⟩
        · intro h
          obtain ⟨body, h1, rfl⟩ := h []
          rw [List.nil_append] at h1
          clear h
          cases h1 with
          | more _ c _ y hc hz =>
            cases hz with
            | one =>
              refine ⟨rest, ?_, rfl⟩
              unfold Lead
              rw [if_neg (by omega)]
              exact ⟨c, hc, by simp⟩
            | more _ d _ w hd hw =>
              refine ⟨d :: w ++ rest, ?_, ?_⟩
              · unfold Lead
                rw [if_neg (by omega)]
                exact ⟨c, hc, by simp⟩
              · refine (ih (i + 1) _ _).2 fun a => ⟨d :: w, .more a d _ _ hd hw, rfl⟩
    constructor
    · rintro ⟨ts1, h1, h2⟩
      obtain ⟨body, g1, rfl⟩ := (later as 0 ts1 rest).1 h2 a
      refine ⟨_, g1, ?_⟩
      have : ts = a ++ (body ++ rest) := by simpa [Lead] using h1
      rw [this, List.append_assoc]
    · rintro ⟨body, h1, rfl⟩
      cases h1 with
      | one => exact ⟨rest, by simp [Lead], rfl⟩
      | more _ c _ ts hc h =>
        exact ⟨c :: ts ++ rest, by simp [Lead], (later as 0 _ _).2 fun a => ⟨c :: ts, .more a c _ _ hc h, rfl⟩⟩

end Slimcc.MacL
