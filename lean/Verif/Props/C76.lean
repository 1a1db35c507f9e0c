import Verif.Model.Attrs
/-!
C76: attribute specifiers are taken out of the token sequence, and the known attributes in them are attached
to the next token, in order.

`source` (Spec/Attrs) is the token sequence of a list of tokens and specifiers, `attach` says which
attributes belong to which token. `attributes` (Model/Attrs) is the last pass of the preprocessor.
-/
set_option autoImplicit false
namespace Slimcc.Props
open Slimcc.Spec.Attrs Slimcc.Attrs

private theorem skip_own : ∀ (ts : List Tk) (n : Nat) (r : List Tk), Matched .lpar .rpar n ts → skipParen n (ts ++ .rpar :: r) = some (ts ++ [.rpar], r)
  | [], n, r, h => by
    have h : n = 0 := h
    subst h; rfl
  | t :: ts, n, r, h => by
    rw [Matched] at h
    rw [List.cons_append, skipParen]
    by_cases h1 : t = .lpar
    · subst h1
      rw [if_neg (by simp), if_pos rfl, skip_own ts (n + 1) r (by simpa using h)]; rfl
    · rw [if_neg h1] at h
      by_cases h2 : t = .rpar
      · subst h2
        rw [if_pos rfl] at h
        rw [if_neg (by omega), if_neg h1, if_pos rfl, skip_own ts (n - 1) r h.2]; rfl
      · rw [if_neg h2] at h
        rw [if_neg (by simp [h2]), if_neg h1, if_neg h2, skip_own ts n r h]; rfl

private theorem splitP : ∀ (ts : List Tk) (n : Nat) (r : List Tk), Matched .lpar .rpar n ts → splitParen n (ts ++ .rpar :: r) = some (ts, r)
  | [], n, r, h => by
    have h : n = 0 := h
    subst h; rfl
  | t :: ts, n, r, h => by
    rw [Matched] at h
    rw [List.cons_append, splitParen]
    by_cases h1 : t = .lpar
    · subst h1
      rw [if_neg (by simp), if_pos rfl, splitP ts (n + 1) r (by simpa using h)]; rfl
    · rw [if_neg h1] at h
      by_cases h2 : t = .rpar
      · subst h2
        rw [if_pos rfl] at h
        rw [if_neg (by omega), if_neg h1, if_pos rfl, splitP ts (n - 1) r h.2]; rfl
      · rw [if_neg h2] at h
        rw [if_neg (by simp [h2]), if_neg h1, if_neg h2, splitP ts n r h]; rfl

private theorem splitB : ∀ (ts : List Tk) (n : Nat) (r : List Tk), Matched .lbrk .rbrk n ts → splitBracket n (ts ++ .rbrk :: r) = some (ts, r)
  | [], n, r, h => by
    have h : n = 0 := h
    subst h; rfl
  | t :: ts, n, r, h => by
    rw [Matched] at h
    rw [List.cons_append, splitBracket]
    by_cases h1 : t = .lbrk
    · subst h1
      rw [if_neg (by simp), if_pos rfl, splitB ts (n + 1) r (by simpa using h)]; rfl
    · rw [if_neg h1] at h
      by_cases h2 : t = .rbrk
      · subst h2
        rw [if_pos rfl] at h
        rw [if_neg (by omega), if_neg h1, if_pos rfl, splitB ts (n - 1) r h.2]; rfl
      · rw [if_neg h2] at h
        rw [if_neg (by simp [h2]), if_neg h1, if_neg h2, splitB ts n r h]; rfl

private theorem matched_append (o c : Tk) : ∀ (ts us : List Tk) (n : Nat), Matched o c n ts → Matched o c 0 us → Matched o c n (ts ++ us)
  | [], us, n, h, h' => by
    have h : n = 0 := h
    subst h; exact h'
  | t :: ts, us, n, h, h' => by
    rw [Matched] at h
    rw [List.cons_append, Matched]
    by_cases h1 : t = o
    · rw [if_pos h1] at h ⊢; exact matched_append o c ts us _ h h'
    · rw [if_neg h1] at h ⊢
      by_cases h2 : t = c
      · rw [if_pos h2] at h ⊢; exact ⟨h.1, matched_append o c ts us _ h.2 h'⟩
      · rw [if_neg h2] at h ⊢; exact matched_append o c ts us _ h h'

private theorem matched_raise (o c : Tk) (hoc : c ≠ o) : ∀ (ts : List Tk) (n : Nat), Matched o c n ts → Matched o c (n + 1) (ts ++ [c])
  | [], n, h => by
    have h : n = 0 := h
    subst h
    rw [List.nil_append, Matched, if_neg hoc, if_pos rfl]
    exact ⟨by omega, rfl⟩
  | t :: ts, n, h => by
    rw [Matched] at h
    rw [List.cons_append, Matched]
    by_cases h1 : t = o
    · rw [if_pos h1] at h ⊢; exact matched_raise o c hoc ts _ h
    · rw [if_neg h1] at h ⊢
      by_cases h2 : t = c
      · rw [if_pos h2] at h ⊢
        refine ⟨by omega, ?_⟩
        have := matched_raise o c hoc ts _ h.2
        rwa [show n - 1 + 1 = n + 1 - 1 by omega] at this
      · rw [if_neg h2] at h ⊢; exact matched_raise o c hoc ts _ h

private theorem own_matched (a : Attr) (h : a.Balanced) : Matched .lpar .rpar 0 a.toks ∧ Matched .lbrk .rbrk 0 a.toks := by
  have own : Matched .lpar .rpar 0 a.own ∧ Matched .lbrk .rbrk 0 a.own := by
    unfold Attr.own
    cases ha : a.args with
    | none => exact ⟨by simp [Matched], by simp [Matched]⟩
    | some ts =>
      obtain ⟨h1, h2⟩ := h ts ha
      refine ⟨?_, ?_⟩
      · have := matched_raise .lpar .rpar (by decide) ts 0 h1
        simpa [Matched] using this
      · have := matched_append .lbrk .rbrk ts [.rpar] 0 h2 (by simp [Matched])
        simpa [Matched] using this
  unfold Attr.toks
  cases a.vendor with
  | none => exact own
  | some v => exact ⟨by simpa [Matched] using own.1, by simpa [Matched] using own.2⟩

private theorem list_matched : ∀ (as : List Attr), (∀ a ∈ as, a.Balanced) → Matched .lpar .rpar 0 (listToks as) ∧ Matched .lbrk .rbrk 0 (listToks as)
  | [], _ => ⟨rfl, rfl⟩
  | [a], h => own_matched a (h a (by simp))
  | a :: b :: as, h => by
    have h1 := own_matched a (h a (by simp))
    have h2 := list_matched (b :: as) (fun x hx => h x (by simp [hx]))
    have e : listToks (a :: b :: as) = a.toks ++ .comma :: listToks (b :: as) := rfl
    rw [e]
    exact ⟨matched_append _ _ _ _ _ h1.1 (by simpa [Matched] using h2.1), matched_append _ _ _ _ _ h1.2 (by simpa [Matched] using h2.2)⟩

private theorem table_known (s : String) : table.contains s = decide (Known s) := by
  have h : Known s ↔ s ∈ table := by
    unfold Known
    constructor
    · rintro ⟨k, hk, h⟩
      simp only [known, List.mem_cons, List.not_mem_nil, or_false] at hk
      rcases hk with rfl | rfl | rfl | rfl | rfl | rfl | rfl | rfl | rfl | rfl | rfl <;> rcases h with rfl | rfl <;> decide
    · intro h
      simp only [table, List.mem_cons, List.not_mem_nil, or_false] at h
      rcases h with rfl | rfl | rfl | rfl | rfl | rfl | rfl | rfl | rfl | rfl | rfl | rfl | rfl | rfl | rfl | rfl | rfl | rfl | rfl | rfl | rfl | rfl <;> decide
  rw [Bool.eq_iff_iff, List.contains_iff_mem, decide_eq_true_iff, h]

private theorem filter_one (std : Bool) (a : Attr) (ha : a.Balanced) (r : List Tk) (hr : r = [] ∨ ∃ r', r = .comma :: r') :
    ∃ ts, vendorOf (a.toks ++ r) = some (a.vendor.map .ident, ts) ∧ oneAttr ts = some (a.name, a.own, r) := by
  have own : oneAttr (a.own ++ r) = some (a.name, a.own, r) := by
    unfold Attr.own
    cases h : a.args with
    | none => rcases hr with rfl | ⟨r', rfl⟩ <;> rfl
    | some ts =>
      have := skip_own ts 0 r (ha ts h).1
      simp [oneAttr, this]
  refine ⟨a.own ++ r, ?_, own⟩
  unfold Attr.toks
  cases a.vendor with
  | some v => rfl
  | none =>
    unfold Attr.own
    cases h : a.args with
    | none => rcases hr with rfl | ⟨r', rfl⟩ <;> rfl
    | some ts => rfl

private theorem supported_eq (std : Bool) (a : Attr) : isSupported std (a.vendor.map .ident) a.name = (decide (Known a.name) && (!std || a.vendor == some "gnu")) := by
  unfold isSupported
  rw [table_known, Bool.and_comm]
  have : (a.vendor.map Tk.ident == some (.ident "gnu")) = (a.vendor == some "gnu") := by
    cases a.vendor with
    | none => rfl
    | some v => rw [Bool.eq_iff_iff]; simp
  rw [this]

private theorem seen_cons (std : Bool) (a : Attr) (as : List Attr) (p : List Seen) :
    p ++ seen std (a :: as) = (if isSupported std (a.vendor.map .ident) a.name then p ++ [⟨std, a.own⟩] else p) ++ seen std as := by
  rw [supported_eq]
  unfold seen
  by_cases h : (decide (Known a.name) && (!std || a.vendor == some "gnu")) = true
  · rw [if_pos h, List.filter_cons, if_pos h]; simp
  · rw [if_neg h, List.filter_cons, if_neg h]

private theorem toks_ne (a : Attr) : ∃ t ts, a.toks = t :: ts := by
  unfold Attr.toks Attr.own
  cases a.vendor <;> exact ⟨_, _, rfl⟩

private theorem filter_list (std : Bool) : ∀ (as : List Attr) (f : Nat) (p : List Seen), (∀ a ∈ as, a.Balanced) → as.length ≤ f →
    filterAttr std f true (listToks as) p = some (p ++ seen std as) ∧
    (as ≠ [] → filterAttr std f false (.comma :: listToks as) p = some (p ++ seen std as))
  | [], f, p, _, _ => ⟨by unfold listToks filterAttr seen; simp, fun h => absurd rfl h⟩
  | a :: as, 0, p, _, hf => by simp at hf
  | a :: as, f + 1, p, hb, hf => by
    have ih := fun p' => filter_list std as f p' (fun x hx => hb x (by simp [hx])) (by simpa using hf)
    have go : ∃ r, listToks (a :: as) = a.toks ++ r ∧ (r = [] ∨ ∃ r', r = .comma :: r') ∧ ∀ p', filterAttr std f false r p' = some (p' ++ seen std as) := by
      cases as with
      | nil => exact ⟨[], by simp [listToks], Or.inl rfl, fun p' => by unfold filterAttr seen; simp⟩
      | cons b bs => exact ⟨_, rfl, Or.inr ⟨_, rfl⟩, fun p' => (ih p').2 (by simp)⟩
    obtain ⟨r, e, hr, hk⟩ := go
    obtain ⟨ts, h1, h2⟩ := filter_one std a (hb a (by simp)) r hr
    obtain ⟨t, ts', et⟩ := toks_ne a
    refine ⟨?_, fun _ => ?_⟩
    · rw [e, et, List.cons_append, filterAttr, ← List.cons_append, ← et]
      · simp [afterComma, h1, h2, hk, seen_cons]
      · simp
    · rw [filterAttr, e]
      · simp [afterComma, h1, h2, hk, seen_cons]
      · simp

private theorem attrs_length (as : List Attr) : as.length ≤ (listToks as).length := by
  induction as with
  | nil => simp
  | cons a as ih =>
    obtain ⟨t, ts', et⟩ := toks_ne a
    cases as with
    | nil => simp [listToks, et]
    | cons b bs =>
      have e : listToks (a :: b :: bs) = a.toks ++ .comma :: listToks (b :: bs) := rfl
      rw [e, et]
      simp at ih ⊢
      omega

private theorem filter_all (std : Bool) (as : List Attr) (p : List Seen) (h : ∀ a ∈ as, a.Balanced) :
    filterAttr std (listToks as).length true (listToks as) p = some (p ++ seen std as) :=
  (filter_list std as _ p h (attrs_length as)).1

private theorem noDouble_tail (i : Item) (is : List Item) (h : NoDouble (i :: is)) : NoDouble is := by
  cases i with
  | tok t => cases t <;> first | exact h | exact h.2
  | gnu s as => exact h
  | std as => exact h

private theorem pass_source : ∀ (is : List Item) (f : Nat) (p : List Seen), (∀ i ∈ is, i.Ok) → NoDouble is → (source is).length ≤ f →
    pass f p (source is) = some (attach p is)
  | [], f, p, _, _, _ => by unfold source pass attach; rfl
  | i :: is, f, p, hok, hd, hf => by
    have e : source (i :: is) = i.toks ++ source is := by simp [source]
    have hi := hok i (by simp)
    have hok' : ∀ j ∈ is, j.Ok := fun j hj => hok j (by simp [hj])
    have hd' := noDouble_tail i is hd
    rw [e] at hf ⊢
    cases i with
    | tok t =>
      cases f with
      | zero => simp [Item.toks] at hf
      | succ f =>
        have ih := pass_source is f [] hok' hd' (by simp [Item.toks] at hf; omega)
        show pass (f + 1) p (t :: source is) = _
        rw [pass, if_neg (by rintro (h | h); exact hi.1 h; exact hi.2 h), if_neg]
        · rw [ih]; rfl
        · rintro ⟨rfl, h⟩
          obtain ⟨r, hr⟩ : ∃ r, source is = .lbrk :: r := by
            cases hs : source is with
            | nil => rw [hs] at h; simp at h
            | cons x xs => rw [hs] at h; simp at h; exact ⟨xs, by rw [h]⟩
          exact absurd rfl (hd.1 .lbrk r hr)
    | gnu short as =>
      cases f with
      | zero => simp [Item.toks] at hf
      | succ f =>
        have ih := pass_source is f (p ++ seen false as) hok' hd' (by simp [Item.toks] at hf; omega)
        have hs := splitP (listToks as) 0 (.rpar :: source is) (list_matched as hi).1
        have e2 : Item.toks (.gnu short as) ++ source is = .ident (if short then "__attribute" else "__attribute__") :: .lpar :: .lpar :: (listToks as ++ .rpar :: .rpar :: source is) := by
          simp [Item.toks]
        rw [e2, pass, if_pos (by cases short <;> simp)]
        have hg : gnuList (.lpar :: .lpar :: (listToks as ++ .rpar :: .rpar :: source is)) = some (listToks as, source is) := by
          simp [gnuList, hs]
        simp [hg, filter_all false as p hi, ih, attach]
    | std as =>
      cases f with
      | zero => simp [Item.toks] at hf
      | succ f =>
        have ih := pass_source is f (p ++ seen true as) hok' hd' (by simp [Item.toks] at hf; omega)
        have hs := splitB (listToks as) 0 (.rbrk :: source is) (list_matched as hi).2
        have e2 : Item.toks (.std as) ++ source is = .lbrk :: .lbrk :: (listToks as ++ .rbrk :: .rbrk :: source is) := by
          simp [Item.toks]
        rw [e2, pass, if_neg (by simp), if_pos ⟨rfl, rfl⟩]
        have hg : stdList (listToks as ++ .rbrk :: .rbrk :: source is) = some (listToks as, source is) := by
          simp [stdList, hs]
        simp [hg, filter_all true as p hi, ih, attach]

/-- Every token comes out once and in order, with exactly the known attributes that stand between it and the
token before; specifiers and unknown attributes leave nothing behind. -/
theorem C76_attached (is : List Item) (hok : ∀ i ∈ is, i.Ok) (hd : NoDouble is) : attributes (source is) = some (attach [] is) :=
  pass_source is _ [] hok hd (Nat.le_refl _)

private theorem skip_inv : ∀ (ts : List Tk) (n : Nat) (o r : List Tk), skipParen n ts = some (o, r) → ∃ as, o = as ++ [.rpar] ∧ ts = as ++ .rpar :: r
  | [], _, _, _, h => by simp [skipParen] at h
  | t :: ts, n, o, r, h => by
    rw [skipParen] at h
    by_cases h1 : n = 0 ∧ t = .rpar
    · rw [if_pos h1] at h
      simp at h
      exact ⟨[], by simp [← h.1, h1.2], by simp [h1.2, h.2]⟩
    · rw [if_neg h1] at h
      cases hk : skipParen (if t = .lpar then n + 1 else if t = .rpar then n - 1 else n) ts with
      | none => rw [hk] at h; simp at h
      | some q =>
        rw [hk] at h
        simp at h
        obtain ⟨as, e1, e2⟩ := skip_inv ts _ q.1 q.2 hk
        exact ⟨t :: as, by simp [← h.1, e1], by rw [← h.2]; simp [← e2]⟩

private theorem splitP_inv : ∀ (ts : List Tk) (n : Nat) (o r : List Tk), splitParen n ts = some (o, r) → ts = o ++ .rpar :: r
  | [], _, _, _, h => by simp [splitParen] at h
  | t :: ts, n, o, r, h => by
    rw [splitParen] at h
    by_cases h1 : n = 0 ∧ t = .rpar
    · rw [if_pos h1] at h
      simp at h
      simp [h.1, h.2, h1.2]
    · rw [if_neg h1] at h
      cases hk : splitParen (if t = .lpar then n + 1 else if t = .rpar then n - 1 else n) ts with
      | none => rw [hk] at h; simp at h
      | some q =>
        rw [hk] at h
        simp at h
        have e := splitP_inv ts _ q.1 q.2 hk
        rw [← h.1, ← h.2]; simp [← e]

private theorem splitB_inv : ∀ (ts : List Tk) (n : Nat) (o r : List Tk), splitBracket n ts = some (o, r) → ts = o ++ .rbrk :: r
  | [], _, _, _, h => by simp [splitBracket] at h
  | t :: ts, n, o, r, h => by
    rw [splitBracket] at h
    by_cases h1 : n = 0 ∧ t = .rbrk
    · rw [if_pos h1] at h
      simp at h
      simp [h.1, h.2, h1.2]
    · rw [if_neg h1] at h
      cases hk : splitBracket (if t = .lbrk then n + 1 else if t = .rbrk then n - 1 else n) ts with
      | none => rw [hk] at h; simp at h
      | some q =>
        rw [hk] at h
        simp at h
        have e := splitB_inv ts _ q.1 q.2 hk
        rw [← h.1, ← h.2]; simp [← e]

private theorem one_inv (ts : List Tk) (n : String) (own r : List Tk) (h : oneAttr ts = some (n, own, r)) :
    ∃ args, ∀ v, (Attr.mk v n args).own = own ∧ ts = own ++ r := by
  unfold oneAttr at h
  split at h
  · rename_i m q
    cases hk : skipParen 0 q with
    | none => rw [hk] at h; simp at h
    | some p =>
      rw [hk] at h
      simp at h
      obtain ⟨rfl, h1, h2⟩ := h
      obtain ⟨as, e1, e2⟩ := skip_inv q 0 p.1 p.2 hk
      refine ⟨some as, fun v => ?_⟩
      rw [← h1, ← h2, e1]
      exact ⟨by simp [Attr.own], by simp [e2]⟩
  · simp at h
    obtain ⟨rfl, h1, h2⟩ := h
    exact ⟨none, fun v => ⟨by simp [Attr.own, h1], by simp [← h1, h2]⟩⟩
  · simp at h

private theorem vendor_inv (ts : List Tk) (v : Option Tk) (r : List Tk) (h : vendorOf ts = some (v, r)) :
    ∃ w : Option String, v = w.map .ident ∧ ts = (match w with | none => [] | some x => [.ident x, .colon, .colon]) ++ r := by
  unfold vendorOf at h
  split at h
  · rename_i x q
    simp at h
    exact ⟨some x, by simp [← h.1], by simp [h.2]⟩
  · simp at h
  · simp at h
    exact ⟨none, by simp [← h.1], by simp [h.2]⟩

private theorem filter_inv (std : Bool) : ∀ (f : Nat) (first : Bool) (ts : List Tk) (p q : List Seen), filterAttr std f first ts p = some q →
    ∃ as, q = p ++ seen std as ∧ ((as = [] ∧ ts = []) ∨ (as ≠ [] ∧ ts = (if first then [] else [.comma]) ++ listToks as))
  | f, first, [], p, q, h => by
    unfold filterAttr at h
    simp at h
    exact ⟨[], by simp [seen, h], Or.inl ⟨rfl, rfl⟩⟩
  | 0, first, t :: ts, p, q, h => by simp [filterAttr] at h
  | f + 1, first, t :: ts, p, q, h => by
    rw [filterAttr] at h
    case x_4 => simp
    cases h1 : afterComma first (t :: ts) with
    | none => rw [h1] at h; simp at h
    | some u =>
      rw [h1] at h
      cases h2 : vendorOf u with
      | none => simp [h2] at h
      | some w =>
        cases h3 : oneAttr w.2 with
        | none => simp [h2, h3] at h
        | some x =>
          simp [h2, h3] at h
          obtain ⟨v, e1, e2⟩ := vendor_inv u w.1 w.2 h2
          obtain ⟨args, ha⟩ := one_inv w.2 x.1 x.2.1 x.2.2 h3
          obtain ⟨e3, e4⟩ := ha v
          have ec : t :: ts = (if first then [] else [.comma]) ++ u := by
            unfold afterComma at h1
            cases first with
            | true => simp at h1 ⊢; exact h1
            | false =>
              simp at h1 ⊢
              split at h1
              · rename_i q heq; simp at h1; rw [← h1]; simpa using heq
              · simp at h1
          have eu : u = (Attr.mk v x.1 args).toks ++ x.2.2 := by
            rw [e2, e4]
            unfold Attr.toks
            rw [e3, List.append_assoc]
            cases v <;> rfl
          obtain ⟨as, eq, hr⟩ := filter_inv std f false x.2.2 _ q h
          refine ⟨⟨v, x.1, args⟩ :: as, ?_, Or.inr ⟨by simp, ?_⟩⟩
          · rw [seen_cons, eq, e1, e3]
          · rw [ec, eu]
            rcases hr with ⟨rfl, e5⟩ | ⟨hne, e5⟩
            · simp [listToks, e5]
            · obtain ⟨b, bs, rfl⟩ := List.exists_cons_of_ne_nil hne
              rw [e5]; simp [listToks]

private theorem filter_inv' (std : Bool) (f : Nat) (ts : List Tk) (p q : List Seen) (h : filterAttr std f true ts p = some q) :
    ∃ as, q = p ++ seen std as ∧ ts = listToks as := by
  obtain ⟨as, e, hr⟩ := filter_inv std f true ts p q h
  rcases hr with ⟨rfl, e5⟩ | ⟨_, e5⟩
  · exact ⟨[], e, by rw [e5]; rfl⟩
  · exact ⟨as, e, by simpa using e5⟩

private theorem pass_inv : ∀ (f : Nat) (p : List Seen) (ts : List Tk) (out : List (Tk × List Seen)), pass f p ts = some out →
    ∃ is, source is = ts ∧ out = attach p is
  | f, p, [], out, h => by
    unfold pass at h
    simp at h
    exact ⟨[], rfl, by rw [h]; rfl⟩
  | 0, p, t :: ts, out, h => by simp [pass] at h
  | f + 1, p, t :: ts, out, h => by
    rw [pass] at h
    by_cases h1 : t = .ident "__attribute__" ∨ t = .ident "__attribute"
    · rw [if_pos h1] at h
      cases h2 : gnuList ts with
      | none => simp [h2] at h
      | some l =>
        cases h3 : filterAttr false l.1.length true l.1 p with
        | none => simp [h2, h3] at h
        | some q =>
          simp [h2, h3] at h
          obtain ⟨is, e1, e2⟩ := pass_inv f q l.2 out h
          obtain ⟨as, e3, e4⟩ := filter_inv' false _ l.1 p q h3
          have et : ts = .lpar :: .lpar :: (l.1 ++ .rpar :: .rpar :: l.2) := by
            unfold gnuList at h2
            split at h2
            · split at h2
              · rename_i hs
                have := splitP_inv _ _ _ _ hs
                simp at h2
                rw [this, ← h2]
              · simp at h2
            · simp at h2
          refine ⟨.gnu (decide (t = .ident "__attribute")) as :: is, ?_, ?_⟩
          · rw [et, e4, ← e1]
            rcases h1 with rfl | rfl <;> simp [source, Item.toks]
          · rw [e2, e3]; rfl
    · rw [if_neg h1] at h
      by_cases h4 : t = .lbrk ∧ ts.head? = some .lbrk
      · rw [if_pos h4] at h
        cases h2 : stdList ts.tail with
        | none => simp [h2] at h
        | some l =>
          cases h3 : filterAttr true l.1.length true l.1 p with
          | none => simp [h2, h3] at h
          | some q =>
            simp [h2, h3] at h
            obtain ⟨is, e1, e2⟩ := pass_inv f q l.2 out h
            obtain ⟨as, e3, e4⟩ := filter_inv' true _ l.1 p q h3
            have et : ts.tail = l.1 ++ .rbrk :: .rbrk :: l.2 := by
              unfold stdList at h2
              split at h2
              · rename_i hs
                have := splitB_inv _ _ _ _ hs
                simp at h2
                rw [this, ← h2]
              · simp at h2
            have ets : ts = .lbrk :: ts.tail := by
              cases ts with
              | nil => simp at h4
              | cons x xs => simp at h4; rw [h4.2]; rfl
            refine ⟨.std as :: is, ?_, ?_⟩
            · rw [ets, et, e4, ← e1, h4.1]
              simp [source, Item.toks]
            · rw [e2, e3]; rfl
      · rw [if_neg h4] at h
        cases h2 : pass f [] ts with
        | none => simp [h2] at h
        | some o =>
          simp [h2] at h
          obtain ⟨is, e1, e2⟩ := pass_inv f [] ts o h2
          exact ⟨.tok t :: is, by rw [← e1]; simp [source, Item.toks], by rw [← h, e2]; rfl⟩

/-- Nothing else is accepted: whatever token sequence gets through is made of tokens and well-formed specifiers,
and its attributes are attached as those say. -/
theorem C76_accepted (ts : List Tk) (out : List (Tk × List Seen)) (h : attributes ts = some out) : ∃ is, source is = ts ∧ out = attach [] is :=
  pass_inv _ _ _ _ h

private theorem attach_fst : ∀ (is : List Item) (p : List Seen), (attach p is).map (·.1) = is.filterMap fun i => match i with | .tok t => some t | _ => none
  | [], _ => rfl
  | .tok t :: is, p => by simp [attach, attach_fst is]
  | .gnu s as :: is, p => by simp [attach, attach_fst is]
  | .std as :: is, p => by simp [attach, attach_fst is]

/-- The token sequence that the parser sees is the source without its attribute specifiers. -/
theorem C76_tokens (is : List Item) (hok : ∀ i ∈ is, i.Ok) (hd : NoDouble is) :
    (attributes (source is)).map (·.map (·.1)) = some (is.filterMap fun i => match i with | .tok t => some t | _ => none) := by
  rw [C76_attached is hok hd, Option.map_some, attach_fst]

/-- Unknown attributes change nothing, wherever they stand and whatever their arguments are: a specifier that
holds only those can be left out. -/
theorem C76_unknown (is js : List Item) (as : List Attr) (h : ∀ a ∈ as, a.Balanced) (hu : ∀ a ∈ as, ¬ Known a.name ∨ a.vendor ≠ some "gnu")
    (hok : ∀ i ∈ is ++ js, i.Ok) (hd : NoDouble (is ++ js)) (hd' : NoDouble (is ++ .std as :: js)) :
    attributes (source (is ++ .std as :: js)) = attributes (source (is ++ js)) := by
  have hs : seen true as = [] := by
    unfold seen
    rw [List.filter_eq_nil_iff.mpr]
    · rfl
    · intro a ha
      rcases hu a ha with h | h <;> simp [h]
  have : ∀ (is : List Item) (p : List Seen), attach p (is ++ .std as :: js) = attach p (is ++ js) := by
    intro is
    induction is with
    | nil => intro p; simp [attach, hs]
    | cons i is ih => intro p; cases i <;> simp [attach, ih]
  rw [C76_attached _ _ hd', C76_attached _ hok hd, this]
  intro i hi
  simp only [List.mem_append, List.mem_cons] at hi hok
  rcases hi with hi | rfl | hi
  · exact hok i (Or.inl hi)
  · exact h
  · exact hok i (Or.inr hi)

/-- `[[gnu::x]]` and `__attribute__((x))` differ only in the form the parser is told. -/
theorem C76_same (as : List Attr) (h : ∀ a ∈ as, a.vendor = some "gnu") : (seen true as).map (·.toks) = (seen false as).map (·.toks) := by
  have : ∀ a ∈ as, (decide (Known a.name) && (!true || a.vendor == some "gnu")) = (decide (Known a.name) && (!false || a.vendor == some "gnu")) := by
    intro a ha; simp [h a ha]
  unfold seen
  rw [List.filter_congr this]
  simp

/-- Departures: an empty place in a list of attributes, which both GNU C and C23 allow, is refused. -/
theorem C76_empty_refused : attributes [.ident "__attribute__", .lpar, .lpar, .ident "weak", .comma, .comma, .ident "packed", .rpar, .rpar, .ident "x"] = none ∧
    attributes [.lbrk, .lbrk, .comma, .rbrk, .rbrk, .ident "x"] = none ∧
    attributes [.lbrk, .lbrk, .ident "deprecated", .comma, .rbrk, .rbrk, .ident "x"] = none := by decide +kernel

/-- `[[__gnu__::packed]]`, which GCC takes for `[[gnu::packed]]`, is ignored. -/
theorem C76_vendor_ignored : attributes (source [.std [⟨some "__gnu__", "packed", none⟩], .tok (.ident "x")]) = some [(.ident "x", [])] := by decide +kernel

/-- Attributes with nothing after them reach nobody. -/
theorem C76_trailing (p : List Seen) (as : List Attr) : attach p [.gnu false as] = [] := rfl

/-! `struct __attribute__((packed, foo(1, (2)), __aligned__(8))) [[gnu::weak, nodiscard("x")]] S [3]` -/

def c76ex : List Item :=
  [.tok (.ident "struct"), .gnu false [⟨none, "packed", none⟩, ⟨none, "foo", some [.other "1", .comma, .lpar, .other "2", .rpar]⟩, ⟨none, "__aligned__", some [.other "8"]⟩],
   .std [⟨some "gnu", "weak", none⟩, ⟨none, "nodiscard", some [.other "\"x\""]⟩], .tok (.ident "S"), .tok .lbrk, .tok (.other "3"), .tok .rbrk]

example : attributes (source c76ex) = some
    [(.ident "struct", []),
     (.ident "S", [⟨false, [.ident "packed"]⟩, ⟨false, [.ident "__aligned__", .lpar, .other "8", .rpar]⟩, ⟨true, [.ident "weak"]⟩]),
     (.lbrk, []), (.other "3", []), (.rbrk, [])] := by decide +kernel

example : (∀ i ∈ c76ex, i.Ok) ∧ NoDouble c76ex := by
  refine ⟨?_, ?_⟩
  · intro i hi
    simp only [c76ex, List.mem_cons, List.not_mem_nil, or_false] at hi
    rcases hi with rfl | rfl | rfl | rfl | rfl | rfl | rfl <;> simp [Item.Ok, Attr.Balanced, Matched]
  · simp [c76ex, NoDouble, source, Item.toks]

end Slimcc.Props
