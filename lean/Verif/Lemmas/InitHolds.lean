import Verif.Lemmas.InitParse
/-!
What the store says after the events, and what `create_lvar_init` makes of it.
-/
set_option autoImplicit false
namespace Slimcc.InitL
open Slimcc.InitList Slimcc.InitSpec

/-! ### Events are about subobjects -/

def notArr : Ty → Prop
  | .arr .. => False
  | _ => True

/-- Values are for what is not an array. -/
def Valid (T : Ty) : Ev → Prop
  | .set p _ => ∃ (c : Ty), T.at_ p = some c ∧ notArr c
  | .brace p => ∃ (c : Ty), T.at_ p = some c

theorem valid_under (T c : Ty) (p : Path) (ev : Ev) (h : T.at_ p = some c) (hv : Valid c ev) :
    Valid T (Ev.under p ev) := by
  cases ev with
  | set q v =>
    obtain ⟨d, hd, hn⟩ := hv
    exact ⟨d, by rw [at_append, h]; exact hd, hn⟩
  | brace q =>
    obtain ⟨d, hd⟩ := hv
    exact ⟨d, by rw [at_append, h]; exact hd⟩

theorem units_valid (n : Nat) (k : Option Nat) : ∀ (m i : Nat) (us : List Nat), i + m ≤ n →
    ∀ (ev : Ev), ev ∈ units i m us → Valid (.arr n (.leaf k)) ev := by
  intro m
  induction m with
  | zero => intro i us _ ev h; simp [units] at h
  | succ m ih =>
    intro i us hi ev h
    cases us with
    | nil => simp [units] at h
    | cons u us =>
      simp only [units, List.mem_cons] at h
      rcases h with rfl | h
      · refine ⟨.leaf k, ?_, trivial⟩
        simp only [Ty.at_, Ty.child]
        rw [if_pos (by omega)]
      · exact ih (i + 1) us (by omega) ev h

section
variable (fits : Src → Ty → Bool)

theorem give_valid (c : Ty) (s : Src) (ht : takes fits c s = true) (ev : Ev) (h : ev ∈ give c s) :
    Valid c ev := by
  cases c with
  | leaf k => simp [give] at h; subst h; exact ⟨_, rfl, trivial⟩
  | agg u ms => simp [give] at h; subst h; exact ⟨_, rfl, trivial⟩
  | arr n b =>
    cases b with
    | arr _ _ => simp [takes] at ht
    | agg _ _ => simp [takes] at ht
    | leaf k =>
      cases s with
      | ex id => cases k <;> simp [takes] at ht
      | str w us =>
        simp only [give, List.mem_cons] at h
        rcases h with rfl | h
        · exact ⟨_, rfl⟩
        · exact units_valid n k n 0 us (by omega) ev h

theorem lead_takes (c : Ty) (s : Src) (l : Path) (d : Ty) (h : lead fits c s = some l) (hd : c.at_ l = some d) :
    takes fits d s = true := by
  induction l generalizing c with
  | nil =>
    simp only [Ty.at_, Option.some.injEq] at hd
    subst hd
    rcases lead_cases fits c s [] h with ⟨ht, _⟩ | ⟨_, c0, l', _, _, hx, _⟩
    · exact ht
    · cases hx
  | cons x l ih =>
    rcases lead_cases fits c s _ h with ⟨_, hx⟩ | ⟨_, c0, l', hc, hl, hx, _⟩
    · cases hx
    · cases hx
      simp only [Ty.at_, hc] at hd
      exact ih c0 hl hd

theorem obj_valid (t : Ty) (its : Items) (tr : Bool) (evs : List Ev)
    (hi : ∀ (cur : Option Path) (a : List Ev), items fits t cur its = some a → ∀ (ev : Ev), ev ∈ a → Valid t ev)
    (h : obj fits t its tr = some evs) : ∀ (ev : Ev), ev ∈ evs → Valid t ev := by
  intro ev hev
  match t, h, hi with
  | .leaf k, h, hi =>
    simp only [obj, objWith, Option.map_eq_some_iff] at h
    obtain ⟨s, hs, rfl⟩ := h
    simp only [List.mem_singleton] at hev
    subst hev
    exact ⟨_, rfl, trivial⟩
  | .agg u ms, h, hi =>
    simp only [obj, objWith, Option.map_eq_some_iff] at h
    obtain ⟨a, ha, rfl⟩ := h
    rcases List.mem_cons.1 hev with rfl | hev
    · exact ⟨_, rfl⟩
    · exact hi _ a ha ev hev
  | .arr n b, h, hi =>
    rcases arr_obj fits n b its tr evs [] h with ⟨sz, us, rfl, hits, _, rfl⟩ | ⟨_, a, ha, rfl⟩
    · exact give_valid fits _ _ (by simp [takes]) ev hev
    · rcases List.mem_cons.1 hev with rfl | hev
      · exact ⟨_, rfl⟩
      · exact hi _ a ha ev hev

mutual
theorem items_valid (t : Ty) (cur : Option Path) (its : Items) (evs : List Ev)
    (h : items fits t cur its = some evs) : ∀ (ev : Ev), ev ∈ evs → Valid t ev := by
  intro ev hev
  match its, h with
  | .nil, h => simp only [items, Option.some.injEq] at h; subst h; simp at hev
  | .cons ds i rest, h =>
    have hh : ∃ (r q' : Path) (evs0 evsR : List Ev), place fits t r i = some (q', evs0) ∧
        items fits t (next t q') rest = some evsR ∧ evs = evs0 ++ evsR := by
      cases ds with
      | nil =>
        obtain ⟨r, q', a, b, _, h1⟩ := items_plain fits t cur i rest evs h
        exact ⟨r, q', a, b, h1⟩
      | cons d ds =>
        obtain ⟨r, q', a, b, _, h1⟩ := items_desig fits t cur d ds i rest evs h
        exact ⟨r, q', a, b, h1⟩
    obtain ⟨p, q, e0, more, hpl, hm, he⟩ := hh
    rw [he] at hev
    rcases List.mem_append.1 hev with hev | hev
    · exact place_valid t p i q e0 hpl ev hev
    · exact items_valid t _ rest more hm ev hev
theorem place_valid (t : Ty) (p : Path) (i : Ini) (q : Path) (evs : List Ev)
    (h : place fits t p i = some (q, evs)) : ∀ (ev : Ev), ev ∈ evs → Valid t ev := by
  intro ev hev
  match i, h with
  | .e s, h =>
    simp only [place, Option.bind_eq_bind, Option.bind_eq_some_iff, Option.some.injEq, Prod.mk.injEq] at h
    obtain ⟨c, hc, l, hl, d, hd, rfl, rfl⟩ := h
    obtain ⟨e, he, rfl⟩ := List.mem_map.1 hev
    exact valid_under t d (p ++ l) e (by rw [at_append, hc]; exact hd)
      (give_valid fits d s (lead_takes fits c s l d hl hd) e he)
  | .br its tr, h =>
    simp only [place, Option.bind_eq_bind, Option.bind_eq_some_iff, Option.some.injEq, Prod.mk.injEq] at h
    obtain ⟨c, hc, evs', ho, rfl, rfl⟩ := h
    obtain ⟨e, he, rfl⟩ := List.mem_map.1 hev
    exact valid_under t c p e hc (obj_valid fits c its tr evs' (fun cur a ha => items_valid c cur its a ha) ho e he)
end

theorem events_valid (t : Ty) (i : Ini) (evs : List Ev) (h : events fits t i = some evs) :
    ∀ (ev : Ev), ev ∈ evs → Valid t ev := by
  cases i with
  | e s =>
    simp only [events] at h
    split at h
    · rename_i ht; cases h; exact give_valid fits t s ht
    · cases h
  | br its tr => exact obj_valid fits t _ _ evs (fun cur a ha => items_valid fits t cur its a ha) h
end

/-! ### The store after the events -/

/-- The node at `q` is an expression, and the way to it leads to it. -/
def Shows (T : Ty) (σ : Store) (q : Path) (v : Val) : Prop :=
  (σ q).kind = .expr ∧ (σ q).pay = .expr v ∧
  ∀ (u : Path) (i : Nat) (r : Path), q = u ++ i :: r → (σ u).kind = .list ∧
    ∀ (c : Ty), T.at_ u = some c → isUnion c = true → (σ u).pay = .mem i

theorem app_touch (T : Ty) (σ : Store) (ev : Ev) (u : Path) (h : u ≠ ev.path) :
    app T σ ev u = touch T ev.path σ u := by
  cases ev with
  | set p v => simp only [app, Store.set, Ev.path] at h ⊢; rw [if_neg h]
  | brace p =>
    simp only [app, Ev.path] at h ⊢
    cases T.at_ p with
    | none => rfl
    | some c => simp only [Store.set]; rw [if_neg h]

/-- What holds of the store after the events `L`. -/
structure After (T : Ty) (L : List Ev) (σ : Store) : Prop where
  kind : ∀ (u : Path), ((σ u).kind = .expr ∧ ∃ v, Ev.set u v ∈ L) ∨
    ((σ u).kind = (fresh T u).kind ∧ ∀ v, Ev.set u v ∉ L)
  pay : ∀ (u : Path), (σ u).kind = .expr → ∃ v, (σ u).pay = .expr v
  union : ∀ (q : Path) (v : Val) (u : Path) (i : Nat) (c : Ty), Ev.set q v ∈ L → T.at_ u = some c →
    isUnion c = true → u ++ [i] <+: q →
    (σ u).pay = .mem i ∨ (σ u).kind = .expr ∨
    ∃ (a b : List Ev) (e : Ev) (j : Nat), L = a ++ e :: b ∧ Ev.set q v ∈ a ∧ u ++ [j] <+: e.path ∧ i ≠ j
  holds : ∀ (l : Path) (v : Val) (r : Path), holds T L l = some (v, r) ↔
    ∃ (p : Path), l = p ++ r ∧ Shows T σ p v

theorem fresh_not_expr (T : Ty) (u : Path) : (fresh T u).kind ≠ .expr := by
  unfold fresh
  cases T.at_ u with
  | none => simp
  | some c => cases c <;> simp [Ty.kind]

theorem after_nil (T : Ty) : After T [] (fresh T) where
  kind u := Or.inr ⟨rfl, by simp⟩
  pay u h := absurd h (fresh_not_expr T u)
  union q v u i c h := by simp at h
  holds l v r := by
    constructor
    · intro h; simp [InitSpec.holds] at h
    · rintro ⟨p, _, h, _⟩; exact absurd h (fresh_not_expr T p)

theorem valid_at (T : Ty) (ev : Ev) (h : Valid T ev) : ∃ (c : Ty), T.at_ ev.path = some c := by
  cases ev with
  | set p v => obtain ⟨c, hc, _⟩ := h; exact ⟨c, hc⟩
  | brace p => exact h

theorem fresh_above (T : Ty) (p u r : Path) (i : Nat) (c : Ty) (h : T.at_ p = some c) (hp : p = u ++ i :: r) :
    (fresh T u).kind = .list := by
  subst hp
  rw [at_append] at h
  unfold fresh
  cases hu : T.at_ u with
  | none => rw [hu] at h; cases h
  | some d =>
    rw [hu] at h
    simp only [Option.bind_some, Ty.at_] at h
    cases d with
    | leaf k => simp [Ty.child] at h
    | arr n b => rfl
    | agg b ms => rfl

/-- Nodes on the way to an event are lists. -/
theorem above_list (T : Ty) (L : List Ev) (σ : Store) (ev : Ev) (hA : After T L σ) (hv : Valid T ev)
    (ho : Once T L ev) (u r : Path) (i : Nat) (hp : ev.path = u ++ i :: r) : (σ u).kind = .list := by
  obtain ⟨c, hc⟩ := valid_at T ev hv
  rcases hA.kind u with ⟨_, v, hm⟩ | ⟨hk, _⟩
  · obtain ⟨w, hw⟩ := ho.above u v hm (by rw [hp]; exact List.prefix_append _ _)
    subst hw
    simp [Ev.path] at hp
  · rw [hk]; exact fresh_above T _ u r i c hc hp

/-- Two paths are in line, or part somewhere. -/
theorem paths (p q : Path) : p <+: q ∨ q <+: p ∨
    ∃ (d : Path) (i j : Nat) (p' q' : Path), p = d ++ i :: p' ∧ q = d ++ j :: q' ∧ i ≠ j := by
  induction p generalizing q with
  | nil => left; exact List.nil_prefix
  | cons x p ih =>
    cases q with
    | nil => right; left; exact List.nil_prefix
    | cons y q =>
      by_cases hxy : x = y
      · subst hxy
        rcases ih q with h | h | ⟨d, i, j, p', q', rfl, rfl, hij⟩
        · left; simpa using h
        · right; left; simpa using h
        · right; right; exact ⟨x :: d, i, j, p', q', rfl, rfl, hij⟩
      · right; right; exact ⟨[], x, y, p, q, rfl, rfl, hxy⟩

theorem split_unique (d d' : Path) (i j i' j' : Nat) (p q p' q' : Path) (h1 : d ++ i :: p = d' ++ i' :: p')
    (h2 : d ++ j :: q = d' ++ j' :: q') (hij : i ≠ j) (hij' : i' ≠ j') : d = d' ∧ i = i' ∧ j = j' := by
  induction d generalizing d' with
  | nil =>
    cases d' with
    | nil => simp at h1 h2; exact ⟨rfl, h1.1, h2.1⟩
    | cons x d' =>
      simp at h1 h2
      exact absurd (h1.1.trans h2.1.symm) hij
  | cons x d ih =>
    cases d' with
    | nil =>
      simp at h1 h2
      exact absurd (h1.1.symm.trans h2.1) hij'
    | cons y d' =>
      simp at h1 h2
      obtain ⟨rfl, h1⟩ := h1
      obtain ⟨a, b, c⟩ := ih d' h1 h2.2
      exact ⟨by rw [a], b, c⟩

/-- Nodes that the event does not lead past keep what they show. -/
theorem shows_step (T : Ty) (L : List Ev) (σ : Store) (ev : Ev) (hA : After T L σ) (hv : Valid T ev)
    (ho : Once T L ev) (q : Path) (v : Val) (hq : q ≠ ev.path) :
    Shows T (app T σ ev) q v ↔ Shows T σ q v ∧ ¬ ev.path <+: q ∧ ¬ Apart T ev.path q := by
  obtain ⟨cp, hcp⟩ := valid_at T ev hv
  rcases paths ev.path q with h | h | ⟨d, i, j, p', q', hp, hqd, hij⟩
  · constructor
    · intro hs
      exfalso
      obtain ⟨x, r, hx⟩ := prefix_split _ _ h (Ne.symm hq)
      cases ev with
      | set p w =>
        have := (hs.2.2 p x r hx).1
        simp [app, Store.set] at this
      | brace p =>
        have hk := hs.1
        rw [app_brace_kind] at hk
        rcases hA.kind q with ⟨_, w, hm⟩ | ⟨hk2, _⟩
        · exact ho.below p q w rfl hm h
        · rw [hk] at hk2; exact fresh_not_expr T q hk2.symm
    · rintro ⟨_, hn, _⟩; exact absurd h hn
  · obtain ⟨x, r, hx⟩ := prefix_split _ _ h hq
    have hl := above_list T L σ ev hA hv ho q r x hx
    constructor
    · intro hs
      have := hs.1
      rw [app_kind T σ ev q hq, hl] at this
      cases this
    · rintro ⟨hs, _⟩
      have := hs.1
      rw [hl] at this; cases this
  · have hnp : ¬ ev.path <+: q := by
      rw [hp, hqd, List.prefix_append_right_inj]
      intro hx
      obtain ⟨t, ht⟩ := hx
      simp at ht
      exact hij ht.1
    have hqcell : app T σ ev q = σ q := by
      rw [app_touch T σ ev q hq]
      refine touch_other T σ ev.path q ?_
      intro k r c hk _
      exfalso
      rw [hp, hqd, List.append_assoc, List.append_cancel_left_eq] at hk
      simp at hk
      exact hij hk.1
    have hdne : d ≠ ev.path := by rw [hp]; simp
    cases hd : T.at_ d with
    | none =>
      rw [hp, at_append, hd] at hcp; cases hcp
    | some c =>
      by_cases hu : isUnion c = true
      · constructor
        · intro hs
          exfalso
          have := (hs.2.2 d j q' hqd).2 c hd hu
          rw [app_touch T σ ev d hdne, hp, touch_at T σ d p' i c hd hu] at this
          simp at this
          exact hij this
        · rintro ⟨_, _, hn⟩
          exact absurd ⟨d, i, j, p', q', c, hp, hqd, hij, hd, hu⟩ hn
      · have hna : ¬ Apart T ev.path q := by
          rintro ⟨d', i', j', p'', q'', c', h1, h2, h3, h4, h5⟩
          obtain ⟨rfl, _, _⟩ := split_unique d d' i j i' j' p' q' p'' q'' (hp.symm.trans h1) (hqd.symm.trans h2) hij h3
          rw [hd] at h4; cases h4
          exact hu h5
        have key : ∀ (u : Path) (k : Nat) (r : Path), q = u ++ k :: r → u ≠ ev.path ∧
            ((∃ (r2 : Path), ev.path = u ++ k :: r2) ∨ app T σ ev u = σ u) := by
          intro u k r hur
          have hne : u ≠ ev.path := by
            intro hx
            apply hnp
            rw [← hx, hur]; exact List.prefix_append _ _
          refine ⟨hne, ?_⟩
          rw [app_touch T σ ev u hne]
          rcases Nat.lt_trichotomy u.length d.length with hl | hl | hl
          · left
            have hud : u ++ [k] <+: d := by
              have h1 : u ++ [k] <+: q := ⟨r, by rw [hur]; simp⟩
              have h2 : d <+: q := ⟨j :: q', hqd.symm⟩
              exact List.prefix_of_prefix_length_le h1 h2 (by simp; omega)
            obtain ⟨s, hs⟩ := hud
            exact ⟨s ++ i :: p', by rw [hp, ← hs]; simp⟩
          · right
            have : u = d := by
              have h1 : u <+: q := ⟨k :: r, hur.symm⟩
              have h2 : d <+: q := ⟨j :: q', hqd.symm⟩
              exact List.IsPrefix.eq_of_length (List.prefix_of_prefix_length_le h1 h2 (by omega)) hl
            subst this
            refine touch_other T σ ev.path u ?_
            intro _ _ c' _ hc'
            rw [hd] at hc'; cases hc'
            simpa using hu
          · right
            refine touch_other T σ ev.path u ?_
            intro k2 r2 _ hk2 _
            exfalso
            have h1 : u <+: q := ⟨k :: r, hur.symm⟩
            have h2 : d ++ [j] <+: q := ⟨q', by rw [hqd]; simp⟩
            obtain ⟨s, hs⟩ := List.prefix_of_prefix_length_le h2 h1 (by simp; omega)
            rw [hp, ← hs] at hk2
            simp at hk2
            exact hij hk2.1
        constructor
        · intro hs
          refine ⟨⟨by rw [← hqcell]; exact hs.1, by rw [← hqcell]; exact hs.2.1, ?_⟩, hnp, hna⟩
          intro u k r hur
          obtain ⟨hne, hk⟩ := key u k r hur
          have hh := hs.2.2 u k r hur
          refine ⟨by rw [← app_kind T σ ev u hne]; exact hh.1, ?_⟩
          intro c' hc' hu'
          rcases hk with ⟨r2, hr2⟩ | hk
          · have hkq : (σ q).kind = .expr := by rw [← hqcell]; exact hs.1
            rcases hA.kind q with ⟨_, w, hm⟩ | ⟨hk2, _⟩
            · rcases hA.union q w u k c' hm hc' hu' ⟨r, by rw [hur]; simp⟩ with h1 | h1 | ⟨a, b, e, j2, h1, h2, h3, h4⟩
              · exact h1
              · have := hh.1
                rw [app_kind T σ ev u hne, h1] at this; cases this
              · exact absurd ⟨r, by rw [hur]; simp⟩
                  (ho.member a b e u k j2 c' h1 hc' hu' ⟨r2, by rw [hr2]; simp⟩ h3 h4 q w h2)
            · rw [hkq] at hk2; exact absurd hk2.symm (fresh_not_expr T q)
          · rw [← hk]; exact hh.2 c' hc' hu'
        · rintro ⟨hs, _, _⟩
          refine ⟨by rw [hqcell]; exact hs.1, by rw [hqcell]; exact hs.2.1, ?_⟩
          intro u k r hur
          obtain ⟨hne, hk⟩ := key u k r hur
          have hh := hs.2.2 u k r hur
          refine ⟨by rw [app_kind T σ ev u hne]; exact hh.1, ?_⟩
          intro c' hc' hu'
          rcases hk with ⟨r2, hr2⟩ | hk
          · rw [app_touch T σ ev u hne, hr2, touch_at T σ u r2 k c' hc' hu']
          · rw [hk]; exact hh.2 c' hc' hu'

/-- The event's own node. -/
theorem shows_self (T : Ty) (L : List Ev) (σ : Store) (p : Path) (w v : Val) (hA : After T L σ)
    (hv : Valid T (.set p w)) (ho : Once T L (.set p w)) :
    Shows T (app T σ (.set p w)) p v ↔ v = w := by
  constructor
  · intro hs
    have := hs.2.1
    simp [app, Store.set] at this
    exact this.symm
  · rintro rfl
    refine ⟨by simp [app, Store.set], by simp [app, Store.set], ?_⟩
    intro u i r hu
    have hne : u ≠ p := by rw [hu]; simp
    have hl := above_list T L σ (.set p v) hA hv ho u r i hu
    refine ⟨by rw [app_kind T σ (.set p v) u hne]; exact hl, ?_⟩
    intro c hc huc
    rw [app_touch T σ (.set p v) u hne]
    simp only [Ev.path]
    rw [hu, touch_at T σ u r i c hc huc]

theorem not_shows_brace (T : Ty) (L : List Ev) (σ : Store) (p : Path) (v : Val) (hA : After T L σ)
    (ho : Once T L (.brace p)) : ¬ Shows T (app T σ (.brace p)) p v := by
  intro hs
  have hk := hs.1
  rw [app_brace_kind] at hk
  rcases hA.kind p with ⟨_, w, hm⟩ | ⟨hk2, _⟩
  · obtain ⟨w', hw⟩ := ho.above p w hm (List.prefix_refl _)
    cases hw
  · rw [hk] at hk2; exact fresh_not_expr T p hk2.symm

theorem apart_prefix (T : Ty) (p q r : Path) (h : Apart T p q) : Apart T p (q ++ r) := by
  obtain ⟨u, i, j, p', q', c, h1, h2, h3, h4, h5⟩ := h
  exact ⟨u, i, j, p', q' ++ r, c, h1, by rw [h2]; simp, h3, h4, h5⟩

theorem apart_not_prefix (T : Ty) (p q : Path) (h : Apart T p q) : ¬ p <+: q := by
  obtain ⟨u, i, j, p', q', c, h1, h2, h3, h4, h5⟩ := h
  rintro ⟨s, hs⟩
  rw [h1, h2] at hs
  simp at hs
  exact h3 hs.1

theorem apart_of_prefix (T : Ty) (p q r : Path) (h : Apart T p (q ++ r)) (hq : ¬ q <+: p) : Apart T p q := by
  obtain ⟨u, i, j, p', q', c, h1, h2, h3, h4, h5⟩ := h
  rcases paths q p with h | ⟨s, hs⟩ | ⟨d, a, b, x, y, h6, h7, h8⟩
  · exact absurd h hq
  · exfalso
    rw [← hs, h1] at h2
    simp at h2
    exact h3 h2.1
  · obtain ⟨rfl, rfl, rfl⟩ := split_unique u d i j b a p' q' y (x ++ r) (h1.symm.trans h7)
      (h2.symm.trans (by rw [h6]; simp)) h3 (Ne.symm h8)
    exact ⟨u, i, j, p', x, c, h1, h6, h3, h4, h5⟩

theorem holds_snoc (T : Ty) (L : List Ev) (ev : Ev) (l : Path) :
    InitSpec.holds T (L ++ [ev]) l = after T (InitSpec.holds T L) ev l := by
  simp [InitSpec.holds, List.foldl_append]

theorem after_snoc (T : Ty) (L : List Ev) (σ : Store) (ev : Ev) (hA : After T L σ) (hv : Valid T ev)
    (ho : Once T L ev) : After T (L ++ [ev]) (app T σ ev) where
  kind u := by
    by_cases hu : u = ev.path
    · cases ev with
      | set p w =>
        simp only [Ev.path] at hu
        subst hu
        left; exact ⟨by simp [app, Store.set], w, by simp⟩
      | brace p =>
        rw [app_brace_kind]
        rcases hA.kind u with ⟨h1, v, h2⟩ | ⟨h1, h2⟩
        · left; exact ⟨h1, v, by simp [h2]⟩
        · right; exact ⟨h1, fun v => by simp [h2 v]⟩
    · rw [app_kind T σ ev u hu]
      rcases hA.kind u with ⟨h1, v, h2⟩ | ⟨h1, h2⟩
      · left; exact ⟨h1, v, by simp [h2]⟩
      · right
        refine ⟨h1, fun v => ?_⟩
        simp only [List.mem_append, h2 v, List.mem_singleton, false_or]
        intro hx
        subst hx
        exact hu rfl
  pay u h := by
    by_cases hu : u = ev.path
    · cases ev with
      | set p w =>
        simp only [Ev.path] at hu
        subst hu
        exact ⟨w, by simp [app, Store.set]⟩
      | brace p =>
        simp only [Ev.path] at hu
        subst hu
        rw [app_brace_kind] at h
        rcases hA.kind u with ⟨_, w, hm⟩ | ⟨hk2, _⟩
        · obtain ⟨w', hw⟩ := ho.above u w hm (List.prefix_refl _)
          cases hw
        · rw [h] at hk2; exact absurd hk2.symm (fresh_not_expr T u)
    · rw [app_kind T σ ev u hu] at h
      obtain ⟨v, hv2⟩ := hA.pay u h
      refine ⟨v, ?_⟩
      rw [app_touch T σ ev u hu, touch_other T σ ev.path u]
      · exact hv2
      · intro i r c hp _
        have := above_list T L σ ev hA hv ho u r i hp
        rw [h] at this; cases this
  union q v u i c hm hc hu hq := by
    by_cases hue : u = ev.path
    · cases ev with
      | set p w =>
        simp only [Ev.path] at hue
        subst hue
        right; left; simp [app, Store.set]
      | brace p =>
        simp only [Ev.path] at hue
        subst hue
        simp only [List.mem_append, List.mem_singleton, reduceCtorEq, or_false] at hm
        exact absurd ((List.prefix_append u [i]).trans hq) (ho.below u q v rfl hm)
    · by_cases hx : ∃ (k : Nat) (r : Path), ev.path = u ++ k :: r
      · obtain ⟨k, r, hk⟩ := hx
        by_cases hki : k = i
        · subst hki
          left
          rw [app_touch T σ ev u hue, hk, touch_at T σ u r k c hc hu]
        · right; right
          rcases List.mem_append.1 hm with hm | hm
          · exact ⟨L, [], ev, k, by simp, hm, ⟨r, by rw [hk]; simp⟩, Ne.symm hki⟩
          · simp only [List.mem_singleton] at hm
            subst hm
            obtain ⟨s, hs⟩ := hq
            simp only [Ev.path] at hk
            rw [hk] at hs
            simp at hs
            exact absurd hs.1.symm hki
      · have hcell : app T σ ev u = σ u := by
          rw [app_touch T σ ev u hue]
          exact touch_other T σ ev.path u (fun k r _ hk _ => absurd ⟨k, r, hk⟩ hx)
        rw [hcell]
        rcases List.mem_append.1 hm with hm | hm
        · rcases hA.union q v u i c hm hc hu hq with h1 | h1 | ⟨a, b, e, j, h1, h2, h3, h4⟩
          · exact Or.inl h1
          · exact Or.inr (Or.inl h1)
          · exact Or.inr (Or.inr ⟨a, b ++ [ev], e, j, by rw [h1]; simp, h2, h3, h4⟩)
        · simp only [List.mem_singleton] at hm
          subst hm
          obtain ⟨s, hs⟩ := hq
          exact absurd ⟨i, s, by simp only [Ev.path]; rw [← hs]; simp⟩ hx
  holds l v r := by
    rw [holds_snoc]
    have step := shows_step T L σ ev hA hv ho
    by_cases hpl : ev.path <+: l
    · -- below the event
      have hother : ∀ (q : Path), l = q ++ r → Shows T (app T σ ev) q v → q = ev.path := by
        intro q hq hs
        rcases Classical.em (q = ev.path) with h | h
        · exact h
        · exfalso
          obtain ⟨h1, h2, _⟩ := (step q v h).1 hs
          rcases List.prefix_or_prefix_of_prefix hpl (⟨r, hq.symm⟩ : q <+: l) with h3 | h3
          · exact h2 h3
          · obtain ⟨x, s, hx⟩ := prefix_split _ _ h3 h
            have := above_list T L σ ev hA hv ho q s x hx
            rw [h1.1] at this; cases this
      cases ev with
      | set p w =>
        simp only [Ev.path] at hpl
        simp only [after, if_pos hpl, Option.some.injEq, Prod.mk.injEq]
        obtain ⟨s, hs⟩ := hpl
        subst hs
        constructor
        · rintro ⟨rfl, h⟩
          simp only [List.drop_left'] at h
          subst h
          exact ⟨p, rfl, (shows_self T L σ p w w hA hv ho).2 rfl⟩
        · rintro ⟨q, hq, hsh⟩
          have := hother q hq hsh
          simp only [Ev.path] at this
          subst this
          have := (shows_self T L σ q w v hA hv ho).1 hsh
          subst this
          rw [List.append_cancel_left_eq] at hq
          subst hq
          simp
      | brace p =>
        simp only [Ev.path] at hpl
        simp only [after, if_pos hpl]
        constructor
        · intro h; cases h
        · rintro ⟨q, hq, hsh⟩
          have := hother q hq hsh
          simp only [Ev.path] at this
          subst this
          exact absurd hsh (not_shows_brace T L σ q v hA ho)
    · have hne : ∀ (q : Path), l = q ++ r → q ≠ ev.path := by
        rintro q hq rfl
        exact hpl ⟨r, hq.symm⟩
      by_cases hap : Apart T ev.path l
      · have : after T (InitSpec.holds T L) ev l = none := by
          cases ev <;> simp only [Ev.path] at hpl hap <;> simp only [after, if_neg hpl, if_pos hap]
        rw [this]
        constructor
        · intro h; cases h
        · rintro ⟨q, hq, hsh⟩
          exfalso
          obtain ⟨h1, h2, h3⟩ := (step q v (hne q hq)).1 hsh
          by_cases hqp : q <+: ev.path
          · obtain ⟨x, s, hx⟩ := prefix_split _ _ hqp (hne q hq)
            have := above_list T L σ ev hA hv ho q s x hx
            rw [h1.1] at this; cases this
          · rw [hq] at hap
            exact h3 (apart_of_prefix T _ q r hap hqp)
      · have : after T (InitSpec.holds T L) ev l = InitSpec.holds T L l := by
          cases ev <;> simp only [Ev.path] at hpl hap <;> simp only [after, if_neg hpl, if_neg hap]
        rw [this, hA.holds l v r]
        constructor
        · rintro ⟨q, hq, hsh⟩
          refine ⟨q, hq, (step q v (hne q hq)).2 ⟨hsh, ?_, ?_⟩⟩
          · intro hx; exact hpl (hx.trans ⟨r, hq.symm⟩)
          · intro hx; exact hap (by rw [hq]; exact apart_prefix T _ q r hx)
        · rintro ⟨q, hq, hsh⟩
          exact ⟨q, hq, ((step q v (hne q hq)).1 hsh).1⟩

theorem after_run (T : Ty) (evs : List Ev) (hv : ∀ (ev : Ev), ev ∈ evs → Valid T ev) (hc : Clean T evs) :
    ∀ (a b : List Ev), evs = a ++ b → After T a (a.foldl (app T) (fresh T)) := by
  intro a
  generalize hn : a.length = n
  induction n generalizing a with
  | zero =>
    intro b _
    have : a = [] := List.length_eq_zero_iff.1 hn
    subst this
    exact after_nil T
  | succ n ih =>
    intro b he
    rcases List.eq_nil_or_concat a with rfl | ⟨a, ev, rfl⟩
    · simp at hn
    replace ih := ih a (by simpa using hn)
    have he' : evs = a ++ ev :: b := by rw [he]; simp
    rw [List.concat_eq_append, List.foldl_append]
    exact after_snoc T a _ ev (ih (ev :: b) he') (hv ev (by rw [he]; simp)) (hc a b ev he')

theorem clean_sound (T : Ty) (evs : List Ev) (hv : ∀ (ev : Ev), ev ∈ evs → Valid T ev) (hc : Clean T evs) :
    Sound T evs (fresh T) := by
  have key : ∀ (b a : List Ev), evs = a ++ b → Sound T b (a.foldl (app T) (fresh T)) := by
    intro b
    induction b with
    | nil => intro a _; trivial
    | cons ev b ih =>
      intro a he
      refine ⟨?_, ?_⟩
      · intro u hu hne
        obtain ⟨x, r, hx⟩ := prefix_split _ _ hu hne
        exact above_list T a _ ev (after_run T evs hv hc a (ev :: b) he) (hv ev (by rw [he]; simp))
          (hc a b ev he) u r x hx
      · have := ih (a ++ [ev]) (by rw [he]; simp)
        rw [List.foldl_append] at this
        exact this
  exact key evs [] rfl

end Slimcc.InitL
