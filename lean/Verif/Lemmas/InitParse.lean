import Verif.Lemmas.InitPath
/-!
`initializer2` and the functions it calls, run on a list as it is written, have the
effect of the events the list stands for.
-/
set_option autoImplicit false
namespace Slimcc.InitL
open Slimcc.InitList Slimcc.InitSpec

def isize (i : Ini) : Nat := i.toks.length
def isizes (its : Items) : Nat := its.toks.length

theorem isize_e (s : Src) : isize (.e s) = 1 := by simp [isize, Ini.toks]

theorem isizes_cons (ds : List Desig) (i : Ini) (its : Items) :
    isize i + isizes its + 1 ≤ isizes (.cons ds i its) := by
  simp only [isizes, isize, Items.toks, List.length_cons, List.length_append]; omega

theorem isize_br (its : Items) (tr : Bool) : isizes its + 1 ≤ isize (.br its tr) := by
  cases its with
  | nil => simp [isizes, isize, Items.toks, Ini.toks]
  | cons ds i rest =>
    simp only [isizes, isize, Items.toks, Ini.toks, List.length_cons, List.length_append]
    split <;> simp <;> omega

theorem isize_pos (i : Ini) : 0 < isize i := by
  cases i with
  | e s => rw [isize_e]; omega
  | br its tr => have := isize_br its tr; omega

/-- What follows an initializer of a list in braces. -/
def aft (its : Items) (tr : Bool) (tl : List Tok) : List Tok :=
  its.toks ++ ((if tr then [.comma, .rb] else [.rb]) ++ tl)

/-- What follows a left brace. -/
def inner : Items → Bool → List Tok → List Tok
  | .nil, _, tl => .rb :: tl
  | .cons ds i rest, tr, tl => desigToks ds ++ (i.toks ++ aft rest tr tl)

theorem br_toks (its : Items) (tr : Bool) (tl : List Tok) :
    (Ini.br its tr).toks ++ tl = .lb :: inner its tr tl := by
  cases its with
  | nil => rfl
  | cons ds i rest => simp [Ini.toks, inner, aft]

section
variable (fits : Src → Ty → Bool)

/-- The run takes what is meant for the subobject at `q` from the list, and at least
one event if `ne` says so. -/
def Goes (ne : Bool) (T R : Ty) (b q : Path) (its : Items) (evs : List Ev) (tr : Bool) (tl : List Tok) (σ : Store)
    (run : Nat → InitList.R) : Prop :=
  ∃ (its' : Items) (e1 e2 : List Ev), evs = e1 ++ e2 ∧ items fits R (next R q) its' = some e2 ∧
    (∀ (ev : Ev), ev ∈ e1 → q <+: ev.path) ∧ isizes its' ≤ isizes its ∧ (ne = true → e1 ≠ []) ∧
    ∃ (N : Nat), ∀ (f : Nat), N ≤ f →
      run f = .ok (aft its' tr tl, (e1.map (Ev.under b)).foldl (app T) σ)

theorem under_path (b : Path) (ev : Ev) : (Ev.under b ev).path = b ++ ev.path := by
  cases ev <;> rfl

theorem under_under (a b : Path) (evs : List Ev) :
    (evs.map (Ev.under b)).map (Ev.under a) = evs.map (Ev.under (a ++ b)) := by
  rw [List.map_map]
  apply List.map_congr_left
  intro ev _
  cases ev <;> simp [Ev.under]

theorem under_nil (evs : List Ev) : evs.map (Ev.under []) = evs := by
  conv => rhs; rw [← List.map_id evs]
  apply List.map_congr_left
  intro ev _
  cases ev <;> rfl

theorem obj_ne (t : Ty) (its : Items) (tr : Bool) (evs : List Ev) (h : obj fits t its tr = some evs) :
    evs ≠ [] := by
  unfold obj at h
  rw [objWith.eq_def] at h
  split at h
  · simp only [Option.map_eq_some_iff] at h
    obtain ⟨a, _, rfl⟩ := h
    simp
  · split at h
    · cases h; simp [give]
    · cases h
  · simp only [Option.map_eq_some_iff] at h
    obtain ⟨a, _, rfl⟩ := h
    simp

theorem give_ne (t : Ty) (s : Src) : give t s ≠ [] := by
  unfold give; split <;> simp

theorem place_under (t : Ty) (p : Path) (i : Ini) (q : Path) (evs : List Ev)
    (h : place fits t p i = some (q, evs)) :
    evs ≠ [] ∧ p <+: q ∧ ∀ (ev : Ev), ev ∈ evs → p <+: ev.path := by
  cases i with
  | e s =>
    simp only [place, Option.bind_eq_bind, Option.bind_eq_some_iff, Option.some.injEq, Prod.mk.injEq] at h
    obtain ⟨c, hc, l, hl, d, hd, rfl, rfl⟩ := h
    refine ⟨by simp [give_ne], List.prefix_append _ _, ?_⟩
    intro ev hev
    obtain ⟨e, _, rfl⟩ := List.mem_map.1 hev
    rw [under_path]
    exact (List.prefix_append p l).trans (List.prefix_append _ _)
  | br its tr =>
    simp only [place, Option.bind_eq_bind, Option.bind_eq_some_iff, Option.some.injEq, Prod.mk.injEq] at h
    obtain ⟨c, hc, evs', he, rfl, rfl⟩ := h
    refine ⟨by simpa using obj_ne fits c _ _ _ he, List.prefix_refl _, ?_⟩
    intro ev hev
    obtain ⟨e, _, rfl⟩ := List.mem_map.1 hev
    rw [under_path]
    exact List.prefix_append _ _

theorem lead_cases (c : Ty) (s : Src) (l : Path) (h : lead fits c s = some l) :
    (takes fits c s = true ∧ l = []) ∨
    (takes fits c s = false ∧ ∃ (c0 : Ty) (l' : Path), c.child 0 = some c0 ∧ lead fits c0 s = some l' ∧
      l = 0 :: l' ∧ ∀ (n : Nat) (b : Ty), c = .arr n b → wrongString b s = false) := by
  cases c with
  | leaf k => left; simp [lead] at h; simp [takes, h]
  | arr n b =>
    rw [lead] at h
    split at h
    · rename_i ht; left; exact ⟨ht, by simpa using h.symm⟩
    · rename_i ht
      split at h
      · cases h
      · rename_i hn
        simp only [Option.map_eq_some_iff] at h
        obtain ⟨l', hl, rfl⟩ := h
        right
        refine ⟨by simpa using ht, b, l', ?_, hl, rfl, ?_⟩
        · simp only [Ty.child]; rw [if_pos (by omega)]
        · intro n' b' hb; cases hb
          cases hw : wrongString b s with
          | false => rfl
          | true => exact absurd (Or.inr hw) hn
  | agg u ms =>
    rw [lead] at h
    split at h
    · rename_i ht; left; exact ⟨ht, by simpa using h.symm⟩
    · rename_i ht
      cases ms with
      | nil => cases h
      | cons nm t rest =>
        simp only [leadMems, Option.map_eq_some_iff] at h
        obtain ⟨l', hl, rfl⟩ := h
        right
        exact ⟨by simpa using ht, t, l', rfl, hl, rfl, fun _ _ hb => by cases hb⟩

/-! ### One initializer as a whole -/

theorem app_set (T : Ty) (σ : Store) (p : Path) (v : Val) (h : Opened T σ p) :
    app T σ (.set p v) = σ.set p ⟨.expr, .expr v⟩ := by
  simp only [app, touch_opened T σ p h]

theorem app_brace (T c : Ty) (σ : Store) (p : Path) (hc : T.at_ p = some c) (h : Opened T σ p)
    (hu : isUnion c = false) : app T σ (.brace p) = σ := by
  simp only [app, hc, touch_opened T σ p h]
  have : opened c (σ p) = σ p := by
    unfold opened; split
    · simp [isUnion] at hu
    · rfl
  rw [this]
  funext q
  by_cases hq : q = p
  · subst hq; simp [Store.set]
  · simp [Store.set, hq]

theorem units_path (n i : Nat) (us : List Nat) (ev : Ev) (h : ev ∈ units i n us) :
    ∃ (k : Nat), ev.path = [k] := by
  induction n generalizing i us with
  | zero => simp [units] at h
  | succ n ih =>
    cases us with
    | nil => simp [units] at h
    | cons u us =>
      simp only [units, List.mem_cons] at h
      rcases h with h | h
      · subst h; exact ⟨i, rfl⟩
      · exact ih _ _ h

theorem putUnits_eq (T c : Ty) (p : Path) (n i : Nat) (us : List Nat) (σ : Store)
    (hc : T.at_ p = some c) (hu : isUnion c = false) (h : Opened T σ p) :
    ((units i n us).map (Ev.under p)).foldl (app T) σ = putUnits p n i us σ := by
  induction n generalizing i us σ with
  | zero => cases us <;> rfl
  | succ n ih =>
    cases us with
    | nil => rfl
    | cons u us =>
      have hop : Opened T σ (p ++ [i]) :=
        opened_snoc T c σ p i h hc (fun hx => by rw [hu] at hx; cases hx)
      simp only [units, List.map_cons, List.foldl_cons, putUnits, Ev.under]
      rw [← app_set T σ (p ++ [i]) (.unit u) hop]
      exact ih (i + 1) us _ (opened_app T σ p _ h (List.prefix_append _ _))

theorem give_ok (T c : Ty) (p : Path) (s : Src) (σ : Store) (hc : T.at_ p = some c)
    (ht : takes fits c s = true) (h : Opened T σ p) (r : List Tok) (f : Nat) :
    init2 fits (f + 1) c p (.src s :: r) σ =
      .ok (r, ((give c s).map (Ev.under p)).foldl (app T) σ) := by
  cases c with
  | leaf k =>
    simp only [init2, assign, give, List.map_cons, List.map_nil, List.foldl_cons, List.foldl_nil,
      Ev.under, List.append_nil, app_set T σ p _ h]
    rfl
  | agg u ms =>
    simp only [takes] at ht
    simp only [give, List.map_cons, List.map_nil, List.foldl_cons, List.foldl_nil,
      Ev.under, List.append_nil, app_set T σ p _ h]
    cases u with
    | false => simp only [init2, assign]; simp [bind, Except.bind, ht]
    | true => simp only [init2, assign]; simp [bind, Except.bind, ht]
  | arr n b =>
    cases b with
    | arr _ _ => simp [takes] at ht
    | agg _ _ => simp [takes] at ht
    | leaf k =>
      cases k with
      | none => cases s <;> simp [takes] at ht
      | some sz =>
        cases s with
        | ex id => simp [takes] at ht
        | str w us =>
          simp only [takes, decide_eq_true_eq] at ht
          subst ht
          simp only [init2, strForm, strInit, if_true, give, List.map_cons, List.foldl_cons, Ev.under,
            List.append_nil]
          rw [app_brace T _ σ p hc h rfl, putUnits_eq T _ p n 0 us σ hc rfl h]

theorem ini_head (i : Ini) (r : List Tok) :
    headIs .rb (i.toks ++ r) = false ∧ isDesig (i.toks ++ r) = false := by
  cases i with
  | e s => exact ⟨rfl, rfl⟩
  | br its tr => rw [br_toks]; exact ⟨rfl, rfl⟩

theorem strForm_src (b : Ty) (n : Nat) (s : Src) (r : List Tok)
    (ht : takes fits (.arr n b) s = false) (hw : wrongString b s = false) :
    strForm b (.src s :: r) = none := by
  cases b with
  | arr _ _ => rfl
  | agg _ _ => rfl
  | leaf k =>
    cases k with
    | none => rfl
    | some sz =>
      cases s with
      | ex id => rfl
      | str w us =>
        simp [takes] at ht
        simp [wrongString] at hw
        exact absurd hw ht

theorem list_step (f : Nat) (c d : Ty) (p : Path) (i : Nat) (t t2 : List Tok) (σ : Store)
    (hc : c.child i = some d) (hh : headIs .rb t = false)
    (h2 : sepBy (i != 0) t = .ok t2)
    (hs : headIs .rb t2 = false) (hd : isDesig t2 = false) :
    list fits (f + 1) c p t σ i = (do
      let (t, σ) ← init2 fits f d (p ++ [i]) t2 σ
      list fits f c p t σ (i + 1)) := by
  rw [list, hc]
  simp only [hh, h2, bind, Except.bind, hs, hd, Bool.or_self, if_false, Bool.false_eq_true]

theorem list_end (f : Nat) (c d : Ty) (p : Path) (i : Nat) (t t2 : List Tok) (σ : Store)
    (hc : c.child i = some d)
    (h : headIs .rb t = true ∨ (sepBy (i != 0) t = .ok t2 ∧
      (headIs .rb t2 = true ∨ isDesig t2 = true))) :
    list fits (f + 1) c p t σ i = .ok (t, σ) := by
  rw [list, hc]
  rcases h with h | ⟨h1, h2⟩
  · simp only [h, if_true]
  · by_cases hx : headIs .rb t = true
    · simp only [hx, if_true]
    · have : (headIs Tok.rb t2 || isDesig t2) = true := by
        rcases h2 with h2 | h2 <;> simp [h2]
      simp only [hx, h1, bind, Except.bind, this, if_true]
      rfl

theorem list_full (f : Nat) (c : Ty) (p : Path) (i : Nat) (t : List Tok) (σ : Store)
    (hc : c.child i = none) : list fits (f + 1) c p t σ i = .ok (t, σ) := by
  rw [list, hc]

theorem desigToks_ne (d : Desig) (ds : List Desig) (r : List Tok) :
    isDesig (desigToks (d :: ds) ++ r) = true := by
  cases d <;> rfl

/-- The rest of a list does not fit, or has designators: the position does not
matter. -/
theorem items_cur (t : Ty) (a b : Option Path) (its : Items)
    (h : its = .nil ∨ ∃ (d : Desig) (ds : List Desig) (i : Ini) (r : Items), its = .cons (d :: ds) i r) :
    items fits t a its = items fits t b its := by
  rcases h with h | ⟨d, ds, i, r, h⟩ <;> subst h <;> simp [items]

def PInit (n : Nat) : Prop :=
  ∀ (T R : Ty) (b q : Path) (c : Ty) (i : Ini) (its : Items) (q' : Path) (evs0 evsR : List Ev) (tr : Bool)
    (tl : List Tok) (σ : Store),
    isize i + isizes its ≤ n → T.at_ b = some R → R.at_ q = some c → Small T →
    place fits R q i = some (q', evs0) → items fits R (next R q') its = some evsR →
    Opened T σ (b ++ q) → Sound T ((evs0 ++ evsR).map (Ev.under b)) σ →
    Goes fits true T R b q its (evs0 ++ evsR) tr tl σ
      (fun f => init2 fits f c (b ++ q) (i.toks ++ aft its tr tl) σ)

def PList (n : Nat) : Prop :=
  ∀ (T R : Ty) (b q : Path) (c : Ty) (k : Nat) (its : Items) (evs : List Ev) (tr : Bool)
    (tl : List Tok) (σ : Store),
    isizes its ≤ n → T.at_ b = some R → R.at_ q = some c → Small T → k < c.cnt →
    (isUnion c = false ∨ q = []) →
    items fits R (next R (q ++ [k])) its = some evs →
    Opened T σ (b ++ q) → Sound T (evs.map (Ev.under b)) σ →
    Goes fits false T R b q its evs tr tl σ (fun f => list fits f c (b ++ q) (aft its tr tl) σ (k + 1))

def PDesig (n : Nat) : Prop :=
  ∀ (r : Path) (T R : Ty) (b q : Path) (c : Ty) (ds : List Desig) (i : Ini) (its : Items) (q' : Path)
    (evs0 evsR : List Ev) (tr : Bool) (tl : List Tok) (σ : Store),
    isize i + isizes its ≤ n → T.at_ b = some R → R.at_ q = some c → Small T →
    resolve c ds = some r →
    place fits R (q ++ r) i = some (q', evs0) → items fits R (next R q') its = some evsR →
    Opened T σ (b ++ q) → Sound T ((evs0 ++ evsR).map (Ev.under b)) σ →
    Goes fits true T R b q its (evs0 ++ evsR) tr tl σ
      (fun f => desig fits f c (b ++ q) (ds.map Desig.toks ++ .eq :: (i.toks ++ aft its tr tl)) σ)

def PBraced (n : Nat) : Prop :=
  ∀ (T c : Ty) (b : Path) (its : Items) (evs : List Ev) (tr : Bool) (tl : List Tok) (σ : Store),
    isizes its ≤ n → T.at_ b = some c → Small T → items fits c (first c) its = some evs →
    Opened T σ b → (isUnion c = true → 0 < c.cnt → (σ b).pay = .mem 0) →
    Sound T (evs.map (Ev.under b)) σ →
    ∃ (N : Nat), ∀ (f : Nat), N ≤ f →
      braced fits f c b (inner its tr tl) σ = .ok (tl, (evs.map (Ev.under b)).foldl (app T) σ)

theorem goes_congr {ne : Bool} {T R : Ty} {b q : Path} {its : Items} {evs : List Ev} {tr : Bool} {tl : List Tok}
    {σ : Store} {run run' : Nat → InitList.R} (N : Nat) (h : ∀ (f : Nat), N ≤ f → run' (f + 1) = run f)
    (hg : Goes fits ne T R b q its evs tr tl σ run) : Goes fits ne T R b q its evs tr tl σ run' := by
  obtain ⟨its', e1, e2, he, hi, hu, hs, hne, M, hM⟩ := hg
  refine ⟨its', e1, e2, he, hi, hu, hs, hne, max N M + 1, ?_⟩
  intro f hf
  obtain ⟨g, rfl⟩ : ∃ g, f = g + 1 := ⟨f - 1, by omega⟩
  rw [h g (by omega)]
  exact hM g (by omega)

/-- A run for one child, then the rest of the list from the next child on. -/
theorem goes_then (ne : Bool) (n : Nat) (ihL : PList fits n) (T R : Ty) (b q : Path) (c : Ty) (k : Nat) (its : Items)
    (evs : List Ev) (tr : Bool) (tl : List Tok) (σ : Store) (run : Nat → InitList.R)
    (hn : isizes its ≤ n) (hb : T.at_ b = some R) (hq : R.at_ q = some c) (hsm : Small T) (hk : k < c.cnt)
    (hu : isUnion c = false ∨ q = []) (hop : Opened T σ (b ++ q)) (hso : Sound T (evs.map (Ev.under b)) σ)
    (hg : Goes fits ne T R b (q ++ [k]) its evs tr tl σ run) :
    Goes fits ne T R b q its evs tr tl σ (fun f => do
      let (t, σ) ← run f
      list fits f c (b ++ q) t σ (k + 1)) := by
  obtain ⟨its1, e1, e2, rfl, hi, hpr, hs, hne, N, hN⟩ := hg
  rw [List.map_append, sound_append] at hso
  have hop1 : Opened T ((e1.map (Ev.under b)).foldl (app T) σ) (b ++ q) := by
    refine opened_fold T σ (b ++ q) _ hop ?_
    intro ev hev
    obtain ⟨e, he, rfl⟩ := List.mem_map.1 hev
    rw [under_path, List.prefix_append_right_inj]
    exact (List.prefix_append q [k]).trans (hpr e he)
  obtain ⟨its2, e3, e4, rfl, hi2, hpr2, hs2, _, M, hM⟩ :=
    ihL T R b q c k its1 e2 tr tl _ (by omega) hb hq hsm hk hu hi hop1 hso.2
  refine ⟨its2, e1 ++ e3, e4, by simp, hi2, ?_, by omega, fun h => by simp [hne h], max N M, ?_⟩
  · intro ev hev
    rcases List.mem_append.1 hev with h | h
    · exact (List.prefix_append q [k]).trans (hpr ev h)
    · exact hpr2 ev h
  · intro f hf
    simp only [hN f (by omega), bind, Except.bind]
    have := hM f (by omega)
    simp only at this
    rw [this, List.map_append, List.foldl_append]

theorem goes_refl (T R : Ty) (b q : Path) (its : Items) (evs : List Ev) (tr : Bool) (tl : List Tok)
    (σ : Store) (run : Nat → InitList.R) (hi : items fits R (next R q) its = some evs)
    (hr : ∀ (f : Nat), run (f + 1) = .ok (aft its tr tl, σ)) :
    Goes fits false T R b q its evs tr tl σ run := by
  refine ⟨its, [], evs, rfl, hi, by simp, Nat.le_refl _, (fun h => by cases h), 1, ?_⟩
  intro f hf
  obtain ⟨g, rfl⟩ : ∃ g, f = g + 1 := ⟨f - 1, by omega⟩
  exact hr g

theorem aft_nil_end (tr : Bool) (tl : List Tok) (k : Nat) :
    headIs .rb (aft .nil tr tl) = true ∨ ∃ (t2 : List Tok), sepBy (k + 1 != 0) (aft .nil tr tl) = .ok t2 ∧
      (headIs .rb t2 = true ∨ isDesig t2 = true) := by
  cases tr with
  | false => left; rfl
  | true => right; exact ⟨.rb :: tl, rfl, Or.inl rfl⟩

theorem aft_cons (ds : List Desig) (i : Ini) (its : Items) (tr : Bool) (tl : List Tok) :
    aft (.cons ds i its) tr tl = .comma :: (desigToks ds ++ (i.toks ++ aft its tr tl)) := by
  simp [aft, Items.toks]

theorem pList (n : Nat) (ihI : ∀ (m : Nat), m < n → PInit fits m) (ihL : ∀ (m : Nat), m < n → PList fits m) :
    PList fits n := by
  intro T R b q c k its evs tr tl σ hn hb hq hsm hk hu hi hop hso
  cases hc : c.child (k + 1) with
  | none =>
    refine goes_refl fits T R b q its evs tr tl σ _ ?_ (fun f => list_full fits f c (b ++ q) _ _ σ hc)
    have := child_none c (k + 1) hc
    rw [next_snoc R c q k hq hk, if_neg (by omega)] at hi
    exact hi
  | some d =>
    cases its with
    | nil =>
      refine goes_refl fits T R b q .nil evs tr tl σ _ ?_ ?_
      · rw [items_cur fits R _ (next R (q ++ [k])) _ (Or.inl rfl)]; exact hi
      · intro f
        rcases aft_nil_end tr tl k with h | ⟨t2, h1, h2⟩
        · exact list_end fits f c d (b ++ q) (k + 1) _ [] σ hc (Or.inl h)
        · exact list_end fits f c d (b ++ q) (k + 1) _ t2 σ hc (Or.inr ⟨h1, h2⟩)
    | cons ds i rest =>
      cases ds with
      | cons dd ds =>
        refine goes_refl fits T R b q _ evs tr tl σ _ ?_ ?_
        · rw [items_cur fits R _ (next R (q ++ [k])) _ (Or.inr ⟨dd, ds, i, rest, rfl⟩)]; exact hi
        · intro f
          refine list_end fits f c d (b ++ q) (k + 1) _ (desigToks (dd :: ds) ++ (i.toks ++ aft rest tr tl)) σ hc
            (Or.inr ⟨?_, Or.inr (desigToks_ne dd ds _)⟩)
          rw [aft_cons]; rfl
      | nil =>
        have hlt : k + 1 < c.cnt := (child_iff c (k + 1)).1 ⟨d, hc⟩
        have hcu : isUnion c = false := by
          rcases hu with h | h
          · exact h
          · cases hx : isUnion c with
            | false => rfl
            | true =>
              subst h
              rw [next_snoc R c [] k hq hk, if_neg (by simp [hx])] at hi
              simp [items, next] at hi
        rw [next_snoc R c q k hq hk, if_pos ⟨hcu, hlt⟩] at hi
        simp only [items, List.isEmpty_nil, if_true, Option.bind_eq_bind, Option.bind_some,
          Option.bind_eq_some_iff] at hi
        obtain ⟨⟨q', evs0⟩, hp, evsR, hr, he⟩ := hi
        cases he
        have hsz := isizes_cons [] i rest
        have hq2 : R.at_ (q ++ [k + 1]) = some d := by rw [at_snoc R c q _ hq]; exact hc
        have hop2 : Opened T σ (b ++ (q ++ [k + 1])) := by
          rw [← List.append_assoc]
          refine opened_snoc T c σ (b ++ q) (k + 1) hop ?_ (fun hx => by rw [hcu] at hx; cases hx)
          rw [at_append, hb]; exact hq
        have g1 := ihI (isize i + isizes rest) (by omega) T R b (q ++ [k + 1]) d i rest q' evs0 evsR tr tl σ
          (Nat.le_refl _) hb hq2 hsm hp hr hop2 hso
        have hpos := isize_pos i
        have g2 := goes_then fits true (isizes rest) (ihL _ (by omega)) T R b q c (k + 1) rest _ tr tl σ _
          (Nat.le_refl _) hb hq hsm hlt (Or.inl hcu) hop hso g1
        have g3 : Goes fits true T R b q rest (evs0 ++ evsR) tr tl σ
            (fun f => list fits f c (b ++ q) (aft (.cons [] i rest) tr tl) σ (k + 1)) := by
          refine goes_congr fits 0 ?_ g2
          intro f _
          have hd := ini_head i (aft rest tr tl)
          rw [list_step fits f c d (b ++ q) (k + 1) (aft (.cons [] i rest) tr tl) (i.toks ++ aft rest tr tl) σ hc
            (by rw [aft_cons]; rfl) (by rw [aft_cons]; rfl) hd.1 hd.2]
          rw [List.append_assoc]
        obtain ⟨its', e1, e2, h1, h2, h3, h4, _, h5⟩ := g3
        exact ⟨its', e1, e2, h1, h2, h3, by omega, (fun h => by cases h), h5⟩

/-- An event below a member of a union enters it. -/
theorem fold_absorb (T c : Ty) (b q : Path) (k : Nat) (evs : List Ev) (σ : Store)
    (hc : T.at_ (b ++ q) = some c) (hu : isUnion c = true) (hne : evs ≠ [])
    (hp : ∀ (ev : Ev), ev ∈ evs → q ++ [k] <+: ev.path) :
    (evs.map (Ev.under b)).foldl (app T) (σ.pay (b ++ q) (.mem k)) =
      (evs.map (Ev.under b)).foldl (app T) σ := by
  cases evs with
  | nil => exact absurd rfl hne
  | cons ev evs =>
    obtain ⟨r, hr⟩ := hp ev (by simp)
    simp only [List.map_cons, List.foldl_cons]
    rw [app_absorb T σ (Ev.under b ev) (b ++ q) r k c hc hu (by rw [under_path, ← hr]; simp)]

/-- A run in one member of a union is a run in the union. -/
theorem goes_union (T R : Ty) (b q : Path) (c : Ty) (k : Nat) (its : Items)
    (evs : List Ev) (tr : Bool) (tl : List Tok) (σ : Store) (run : Nat → InitList.R)
    (hb : T.at_ b = some R) (hq : R.at_ q = some c) (hk : k < c.cnt) (hu : isUnion c = true)
    (hg : Goes fits true T R b (q ++ [k]) its evs tr tl (σ.pay (b ++ q) (.mem k)) run) :
    Goes fits true T R b q its evs tr tl σ run := by
  obtain ⟨its1, e1, e2, he, hi, hpr, hs, hne, N, hN⟩ := hg
  refine ⟨its1, e1, e2, he, ?_, ?_, hs, hne, N, ?_⟩
  · rw [next_snoc R c q k hq hk, if_neg (by simp [hu])] at hi
    exact hi
  · intro ev hev; exact (List.prefix_append q [k]).trans (hpr ev hev)
  · intro f hf
    rw [hN f hf, fold_absorb T c b q k e1 σ (by rw [at_append, hb]; exact hq) hu (hne rfl) hpr]

theorem opened_union (T R : Ty) (b q : Path) (c : Ty) (k : Nat) (σ : Store)
    (hb : T.at_ b = some R) (hq : R.at_ q = some c) (hop : Opened T σ (b ++ q)) :
    Opened T (σ.pay (b ++ q) (.mem k)) (b ++ (q ++ [k])) := by
  rw [← List.append_assoc]
  refine opened_snoc T c _ (b ++ q) k ?_ (by rw [at_append, hb]; exact hq)
    (fun _ => by simp [Store.pay, Store.set])
  intro u i r d he hd hud
  have hne : u ≠ b ++ q := by rw [he]; simp
  have := hop u i r d he hd hud
  simpa [Store.pay, Store.set, hne] using this

theorem pInit_e (n : Nat) (ihL : ∀ (m : Nat), m < n → PList fits m) (l : Path) :
    ∀ (T R : Ty) (b q : Path) (c d : Ty) (s : Src) (its : Items) (evsR : List Ev) (tr : Bool)
      (tl : List Tok) (σ : Store),
      1 + isizes its ≤ n → T.at_ b = some R → R.at_ q = some c → Small T →
      lead fits c s = some l → c.at_ l = some d → items fits R (next R (q ++ l)) its = some evsR →
      Opened T σ (b ++ q) → Sound T (((give d s).map (Ev.under (q ++ l)) ++ evsR).map (Ev.under b)) σ →
      Goes fits true T R b q its ((give d s).map (Ev.under (q ++ l)) ++ evsR) tr tl σ
        (fun f => init2 fits f c (b ++ q) (.src s :: aft its tr tl) σ) := by
  induction l with
  | nil =>
    intro T R b q c d s its evsR tr tl σ hn hb hq hsm hl hd hi hop hso
    simp only [Ty.at_, Option.some.injEq] at hd
    subst hd
    rcases lead_cases fits c s [] hl with ⟨ht, _⟩ | ⟨_, c0, l', _, _, hx, _⟩
    · rw [List.append_nil] at hi hso ⊢
      refine ⟨its, _, evsR, rfl, hi, ?_, Nat.le_refl _, (fun _ => by simp [give_ne]), 1, ?_⟩
      · intro ev hev
        obtain ⟨e, _, rfl⟩ := List.mem_map.1 hev
        rw [under_path]; exact List.prefix_append _ _
      · intro f hf
        obtain ⟨g, rfl⟩ : ∃ g, f = g + 1 := ⟨f - 1, by omega⟩
        rw [under_under]
        exact give_ok fits T c (b ++ q) s σ (by rw [at_append, hb]; exact hq) ht hop _ g
    · cases hx
  | cons x l ih =>
    intro T R b q c d s its evsR tr tl σ hn hb hq hsm hl hd hi hop hso
    rcases lead_cases fits c s (x :: l) hl with ⟨_, hx⟩ | ⟨ht, c0, l', hc0, hl', hx, hw⟩
    · cases hx
    · cases hx
      have hk : 0 < c.cnt := (child_iff c 0).1 ⟨c0, hc0⟩
      have hq0 : R.at_ (q ++ [0]) = some c0 := by rw [at_snoc R c q _ hq]; exact hc0
      simp only [Ty.at_, hc0] at hd
      have hcat : q ++ 0 :: l = (q ++ [0]) ++ l := by simp
      rw [hcat] at hi hso ⊢
      cases hu : isUnion c with
      | false =>
        have hop2 : Opened T σ (b ++ (q ++ [0])) := by
          rw [← List.append_assoc]
          exact opened_snoc T c σ (b ++ q) 0 hop (by rw [at_append, hb]; exact hq)
            (fun hx => by rw [hu] at hx; cases hx)
        have g1 := ih T R b (q ++ [0]) c0 d s its evsR tr tl σ hn hb hq0 hsm hl' hd hi hop2 hso
        have g2 := goes_then fits true (isizes its) (ihL _ (by omega)) T R b q c 0 its _ tr tl σ _
          (Nat.le_refl _) hb hq hsm hk (Or.inl hu) hop hso g1
        have g3 : Goes fits true T R b q its ((give d s).map (Ev.under (q ++ [0] ++ l)) ++ evsR) tr tl σ
            (fun f => list fits f c (b ++ q) (.src s :: aft its tr tl) σ 0) := by
          refine goes_congr fits 0 ?_ g2
          intro f _
          rw [list_step fits f c c0 (b ++ q) 0 _ (.src s :: aft its tr tl) σ hc0 rfl rfl rfl rfl]
          rw [List.append_assoc]
        refine goes_congr fits 0 ?_ g3
        intro f _
        cases c with
        | leaf k => cases hc0
        | arr m e =>
          simp only [init2, strForm_src fits e m s (aft its tr tl) ht (hw m e rfl)]
        | agg u ms =>
          simp only [isUnion] at hu
          subst hu
          simp only [takes] at ht
          simp only [init2, assign, bind, Except.bind, ht]
          rfl
      | true =>
        have g1 := ih T R b (q ++ [0]) c0 d s its evsR tr tl (σ.pay (b ++ q) (.mem 0)) hn hb hq0 hsm hl' hd hi
          (opened_union T R b q c 0 σ hb hq hop) (sound_sameKind T _ _ _ (sameKind_pay σ _ _) hso)
        have g2 := goes_union fits T R b q c 0 its _ tr tl σ _ hb hq hk hu g1
        refine goes_congr fits 0 ?_ g2
        intro f _
        cases c with
        | leaf k => cases hc0
        | arr m e => simp [isUnion] at hu
        | agg u ms =>
          simp only [isUnion] at hu
          subst hu
          simp only [takes] at ht
          have hms : ms.len ≠ 0 := by simp only [Ty.cnt] at hk; omega
          simp only [Ty.child] at hc0
          simp only [init2, assign, bind, Except.bind, ht, hc0, if_neg hms, ← List.append_assoc]
          rfl

theorem scalar_ok (k : Option Nat) (its : Items) (tr : Bool) (s : Src) (h : scalar its tr = some s) :
    ∀ (p : Path) (tl : List Tok) (σ : Store),
    ∃ (N : Nat), ∀ (f : Nat), N ≤ f →
      init2 fits f (.leaf k) p ((Ini.br its tr).toks ++ tl) σ = .ok (tl, σ.set p ⟨.expr, .expr (.of s)⟩) := by
  intro p tl σ
  match its, tr, h with
  | .nil, tr, h => simp [scalar] at h
  | .cons (d :: ds) i rest, tr, h => simp [scalar] at h
  | .cons [] i (.cons ds j rest), tr, h => simp [scalar] at h
  | .cons [] i .nil, true, h => cases i <;> simp [scalar] at h
  | .cons [] (.e s') .nil, false, h =>
    simp only [scalar, Option.some.injEq] at h
    subst h
    refine ⟨2, ?_⟩
    intro f hf
    obtain ⟨g, rfl⟩ : ∃ g, f = g + 2 := ⟨f - 2, by omega⟩
    have : (Ini.br (.cons [] (.e s') .nil) false).toks ++ tl = .lb :: .src s' :: .rb :: tl := by
      simp [Ini.toks, Items.toks, desigToks]
    rw [this]
    simp only [init2, assign, skip, bind, Except.bind, if_true]
  | .cons [] (.br its tr) .nil, false, h =>
    simp only [scalar] at h
    obtain ⟨N, hN⟩ := scalar_ok k its tr s h p (.rb :: tl) σ
    refine ⟨N + 1, ?_⟩
    intro f hf
    obtain ⟨g, rfl⟩ : ∃ g, f = g + 1 := ⟨f - 1, by omega⟩
    have : (Ini.br (.cons [] (.br its tr) .nil) false).toks ++ tl =
        .lb :: ((Ini.br its tr).toks ++ .rb :: tl) := by
      rw [br_toks]; simp [inner, desigToks, aft, Items.toks]
    rw [this]
    simp only [init2]
    rw [hN g (by omega)]
    simp only [skip, bind, Except.bind, if_true]

theorem leaf_ok (k : Option Nat) (its : Items) (tr : Bool) (evs : List Ev)
    (h : obj fits (.leaf k) its tr = some evs) :
    ∀ (T : Ty) (p : Path) (tl : List Tok) (σ : Store), Opened T σ p →
    ∃ (N : Nat), ∀ (f : Nat), N ≤ f →
      init2 fits f (.leaf k) p ((Ini.br its tr).toks ++ tl) σ =
        .ok (tl, (evs.map (Ev.under p)).foldl (app T) σ) := by
  intro T p tl σ hop
  simp only [obj, objWith, Option.map_eq_some_iff] at h
  obtain ⟨s, hs, rfl⟩ := h
  simp only [List.map_cons, List.map_nil, List.foldl_cons,
      List.foldl_nil, Ev.under, List.append_nil, app_set T σ p _ hop]
  exact scalar_ok fits k its tr s hs p tl σ

theorem arr_other (n : Nat) (b : Ty) (its : Items) (tr : Bool) (evs : List Ev) (tl : List Tok)
    (h : obj fits (.arr n b) its tr = some evs)
    (h1 : strForm b (.lb :: inner its tr tl) = none)
    (h2 : obj fits (.arr n b) its tr = (items fits (.arr n b) (first (.arr n b)) its).map (.brace [] :: ·)) :
    strForm b (.lb :: inner its tr tl) = none ∧ ∃ (evs' : List Ev),
      items fits (.arr n b) (first (.arr n b)) its = some evs' ∧ evs = .brace [] :: evs' := by
  rw [h2, Option.map_eq_some_iff] at h
  obtain ⟨a, ha, rfl⟩ := h
  exact ⟨h1, a, ha, rfl⟩

theorem arr_obj (n : Nat) (b : Ty) (its : Items) (tr : Bool) (evs : List Ev) (tl : List Tok)
    (h0 : obj fits (.arr n b) its tr = some evs) :
    (∃ (sz : Nat) (us : List Nat), b = .leaf (some sz) ∧ its = .cons [] (.e (.str sz us)) .nil ∧ tr = false ∧
      evs = give (.arr n b) (.str sz us)) ∨
    (strForm b (.lb :: inner its tr tl) = none ∧ ∃ (evs' : List Ev),
      items fits (.arr n b) (first (.arr n b)) its = some evs' ∧ evs = .brace [] :: evs') := by
  match b, its, h0 with
  | .arr _ _, _, h => right; exact arr_other fits n _ _ tr evs tl h rfl (by simp [obj, objWith])
  | .agg _ _, _, h => right; exact arr_other fits n _ _ tr evs tl h rfl (by simp [obj, objWith])
  | .leaf none, _, h => right; exact arr_other fits n _ _ tr evs tl h rfl (by simp [obj, objWith])
  | .leaf (some sz), .nil, h => right; exact arr_other fits n _ _ tr evs tl h rfl (by simp [obj, objWith])
  | .leaf (some sz), .cons (d :: ds) i rest, h =>
    right; exact arr_other fits n _ _ tr evs tl h (by cases d <;> rfl) (by simp [obj, objWith])
  | .leaf (some sz), .cons [] (.br its2 tr2) rest, h =>
    right; refine arr_other fits n _ _ tr evs tl h ?_ (by simp [obj, objWith])
    simp only [inner, br_toks]; rfl
  | .leaf (some sz), .cons [] (.e (.ex id)) rest, h => right; exact arr_other fits n _ _ tr evs tl h rfl (by simp [obj, objWith])
  | .leaf (some sz), .cons [] (.e (.str w us)) (.cons ds j rest), h =>
    right; refine arr_other fits n _ _ tr evs tl h ?_ (by simp [obj, objWith])
    simp only [inner, aft_cons]; rfl
  | .leaf (some sz), .cons [] (.e (.str w us)) .nil, h =>
    left
    simp only [obj, objWith] at h
    split at h
    · rename_i hx
      obtain ⟨rfl, rfl⟩ := hx
      cases h
      exact ⟨sz, us, rfl, rfl, rfl, rfl⟩
    · cases h

theorem pObj (n : Nat) (ihB : PBraced fits n) (T c : Ty) (p : Path) (its : Items) (tr : Bool) (evs : List Ev)
    (tl : List Tok) (σ : Store) (hn : isizes its ≤ n) (hc : T.at_ p = some c) (hsm : Small T)
    (h : obj fits c its tr = some evs) (hop : Opened T σ p) (hso : Sound T (evs.map (Ev.under p)) σ) :
    ∃ (N : Nat), ∀ (f : Nat), N ≤ f →
      init2 fits f c p (.lb :: inner its tr tl) σ = .ok (tl, (evs.map (Ev.under p)).foldl (app T) σ) := by
  cases c with
  | leaf k =>
    have := leaf_ok fits k its tr evs h T p tl σ hop
    rw [br_toks] at this
    exact this
  | arr m b =>
    rcases arr_obj fits m b its tr evs tl h with ⟨sz, us, rfl, rfl, rfl, rfl⟩ | ⟨hs, evs', hi, rfl⟩
    · refine ⟨1, ?_⟩
      intro f hf
      obtain ⟨g, rfl⟩ : ∃ g, f = g + 1 := ⟨f - 1, by omega⟩
      have hg := give_ok fits T (.arr m (.leaf (some sz))) p (.str sz us) σ hc (by simp [takes]) hop tl g
      simp only [init2, strForm] at hg
      have : inner (.cons [] (.e (.str sz us)) .nil) false tl = .src (.str sz us) :: .rb :: tl := rfl
      rw [this]
      simp only [init2, strForm]
      exact hg
    · have hap : app T σ (.brace p) = σ := app_brace T _ σ p hc hop rfl
      simp only [List.map_cons, Ev.under, List.append_nil, Sound, hap] at hso
      obtain ⟨N, hN⟩ := ihB T (.arr m b) p its evs' tr tl σ hn hc hsm hi hop
        (fun hx => by simp [isUnion] at hx) hso.2
      refine ⟨N + 1, ?_⟩
      intro f hf
      obtain ⟨g, rfl⟩ : ∃ g, f = g + 1 := ⟨f - 1, by omega⟩
      simp only [List.map_cons, Ev.under, List.append_nil, List.foldl_cons, hap]
      rw [← hN g (by omega)]
      simp only [init2, hs]
  | agg u ms =>
    simp only [obj, objWith, Option.map_eq_some_iff] at h
    obtain ⟨evs', hi, rfl⟩ := h
    cases u with
    | false =>
      have hap : app T σ (.brace p) = σ := app_brace T _ σ p hc hop rfl
      simp only [List.map_cons, Ev.under, List.append_nil, Sound, hap] at hso
      obtain ⟨N, hN⟩ := ihB T (.agg false ms) p its evs' tr tl σ hn hc hsm hi hop
        (fun hx => by simp [isUnion] at hx) hso.2
      refine ⟨N + 1, ?_⟩
      intro f hf
      obtain ⟨g, rfl⟩ : ∃ g, f = g + 1 := ⟨f - 1, by omega⟩
      simp only [List.map_cons, Ev.under, List.append_nil, List.foldl_cons, hap]
      rw [← hN g (by omega)]
      simp only [init2]
    | true =>
      have hap : app T σ (.brace p) = σ.pay p (if ms.len = 0 then .null else .mem 0) := by
        simp only [app, hc, touch_opened T σ p hop, opened]
        rfl
      simp only [List.map_cons, Ev.under, List.append_nil, Sound, hap] at hso
      have hop2 : Opened T (σ.pay p (if ms.len = 0 then .null else .mem 0)) p := by
        rw [← hap]; exact opened_app T σ p _ hop (List.prefix_refl _)
      obtain ⟨N, hN⟩ := ihB T (.agg true ms) p its evs' tr tl _ hn hc hsm hi hop2
        (fun _ hx => by
          simp only [Ty.cnt] at hx
          rw [if_neg (by omega)]; simp [Store.pay, Store.set]) hso.2
      refine ⟨N + 1, ?_⟩
      intro f hf
      obtain ⟨g, rfl⟩ : ∃ g, f = g + 1 := ⟨f - 1, by omega⟩
      simp only [List.map_cons, Ev.under, List.append_nil, List.foldl_cons, hap]
      rw [← hN g (by omega)]
      simp only [init2]

theorem pInit (n : Nat) (ihL : ∀ (m : Nat), m < n → PList fits m)
    (ihB : ∀ (m : Nat), m < n → PBraced fits m) : PInit fits n := by
  intro T R b q c i its q' evs0 evsR tr tl σ hn hb hq hsm hp hr hop hso
  cases i with
  | e s =>
    simp only [place, hq, Option.bind_eq_bind, Option.bind_some, Option.bind_eq_some_iff,
      Option.some.injEq, Prod.mk.injEq] at hp
    obtain ⟨l, hl, d, hd, rfl, rfl⟩ := hp
    exact pInit_e fits n ihL l T R b q c d s its evsR tr tl σ (by rw [isize_e] at hn; exact hn) hb hq hsm hl hd hr hop hso
  | br its2 tr2 =>
    simp only [place, hq, Option.bind_eq_bind, Option.bind_some, Option.bind_eq_some_iff,
      Option.some.injEq, Prod.mk.injEq] at hp
    obtain ⟨evs, hobj, rfl, rfl⟩ := hp
    have hsz := isize_br its2 tr2
    have hpl := place_under fits R q (.br its2 tr2) q (evs.map (Ev.under q)) (by simp [place, hq, hobj])
    refine ⟨its, evs.map (Ev.under q), evsR, rfl, hr, hpl.2.2, Nat.le_refl _, fun _ => hpl.1, ?_⟩
    rw [List.map_append, sound_append, under_under] at hso
    rw [under_under]
    obtain ⟨N, hN⟩ := pObj fits (isizes its2) (ihB _ (by omega)) T c (b ++ q) its2 tr2 evs (aft its tr tl) σ
      (Nat.le_refl _) (by rw [at_append, hb]; exact hq) hsm hobj hop hso.1
    refine ⟨N, ?_⟩
    intro f hf
    rw [br_toks]
    exact hN f hf

mutual
theorem has_eq (t : Ty) (nm : String) : t.has nm = (Ty.named t nm).isSome := by
  cases t with
  | leaf k => rfl
  | arr n b => rfl
  | agg u ms =>
    have := find_eq ms nm
    simp only [Ty.has, Ty.named]
    cases h : memNamed ms nm with
    | none => rw [h] at this; simp only at this; rw [this]; rfl
    | some p => rw [h] at this; obtain ⟨i, p', c, named, _, h2, _⟩ := this; rw [h2]; rfl
theorem find_eq (ms : Mems) (nm : String) :
    match memNamed ms nm with
    | none => ms.find nm = none
    | some p => ∃ (i : Nat) (p' : Path) (c : Ty) (named : Bool), p = i :: p' ∧ ms.find nm = some (i, named) ∧
        ms.get i = some c ∧ ((named = true ∧ p' = []) ∨ (named = false ∧ Ty.named c nm = some p')) := by
  cases ms with
  | nil => rfl
  | cons name ty rest =>
    have hr := find_eq rest nm
    have ht := has_eq ty nm
    have later : rest.find nm = none ∧ memNamed rest nm = none ∨
        ∃ (i : Nat) (p' : Path) (c : Ty) (named : Bool), memNamed rest nm = some (i :: p') ∧
          rest.find nm = some (i, named) ∧
          rest.get i = some c ∧ ((named = true ∧ p' = []) ∨ (named = false ∧ Ty.named c nm = some p')) := by
      cases h : memNamed rest nm with
      | none => rw [h] at hr; left; exact ⟨hr, rfl⟩
      | some p =>
        rw [h] at hr
        obtain ⟨i, p', c, named, rfl, h2⟩ := hr
        right; exact ⟨i, p', c, named, rfl, h2⟩
    cases name with
    | some s =>
      simp only [memNamed, Mems.find]
      by_cases hs : s = nm
      · simp only [hs, if_true]
        exact ⟨0, [], ty, true, rfl, rfl, rfl, Or.inl ⟨rfl, rfl⟩⟩
      · simp only [hs, if_false]
        rcases later with ⟨h1, h2⟩ | ⟨i, p', c, named, h1, h2, h3, h4⟩
        · simp only [h1, h2]; rfl
        · simp only [h1, h2]
          exact ⟨i + 1, p', c, named, rfl, rfl, h3, h4⟩
    | none =>
      simp only [memNamed, Mems.find, ht]
      cases hn : Ty.named ty nm with
      | some p =>
        simp only [Option.isSome_some, if_true]
        exact ⟨0, p, ty, false, rfl, rfl, rfl, Or.inr ⟨rfl, hn⟩⟩
      | none =>
        simp only [Option.isSome_none, Bool.false_eq_true, if_false]
        rcases later with ⟨h1, h2⟩ | ⟨i, p', c, named, h1, h2, h3, h4⟩
        · simp only [h1, h2]; rfl
        · simp only [h1, h2]
          exact ⟨i + 1, p', c, named, rfl, rfl, h3, h4⟩
end

/-- The first step of a designation. -/
theorem resolve_step (c : Ty) (ds : List Desig) (x : Nat) (r : Path) (h : resolve c ds = some (x :: r)) :
    (∃ (n : Nat) (e : Ty) (v : Int) (ds' : List Desig), c = .arr n e ∧ ds = .idx v :: ds' ∧ 0 ≤ v ∧ v < n ∧
      v.toNat = x ∧ resolve e ds' = some r) ∨
    (∃ (u : Bool) (ms : Mems) (nm : String) (ds' ds'' : List Desig) (named : Bool) (d : Ty),
      c = .agg u ms ∧ ds = .dot nm :: ds' ∧ ms.find nm = some (x, named) ∧ ms.get x = some d ∧
      ds'' = (if named then ds' else ds) ∧ resolve d ds'' = some r) := by
  match c, ds, h with
  | _, [], h => simp [resolve] at h
  | .leaf k, d :: ds, h => cases d <;> simp [resolve] at h
  | .arr n e, .dot nm :: ds, h => simp [resolve] at h
  | .agg u ms, .idx v :: ds, h => simp [resolve] at h
  | .arr n e, .idx v :: ds, h =>
    left
    simp only [resolve] at h
    split at h
    · rename_i hv
      simp only [Option.map_eq_some_iff, List.cons.injEq] at h
      obtain ⟨r', hr, hx, rfl⟩ := h
      exact ⟨n, e, v, ds, rfl, rfl, hv.1, hv.2, hx, hr⟩
    · cases h
  | .agg u ms, .dot nm :: ds, h =>
    right
    simp only [resolve, Option.bind_eq_bind, Option.bind_eq_some_iff, Option.some.injEq] at h
    obtain ⟨p, hp, t, ht, q, hq, he⟩ := h
    have hf := find_eq ms nm
    rw [hp] at hf
    obtain ⟨i, p', d, named, rfl, h2, h3, h4⟩ := hf
    simp only [List.cons_append, List.cons.injEq] at he
    obtain ⟨rfl, rfl⟩ := he
    have htd : d.at_ p' = some t := by
      simp only [Ty.at_, Ty.child, h3] at ht
      exact ht
    rcases h4 with ⟨rfl, rfl⟩ | ⟨rfl, hn⟩
    · simp only [Ty.at_, Option.some.injEq] at htd
      subst htd
      exact ⟨u, ms, nm, ds, ds, true, d, rfl, rfl, h2, h3, rfl, by simpa using hq⟩
    · refine ⟨u, ms, nm, ds, .dot nm :: ds, false, d, rfl, rfl, h2, h3, rfl, ?_⟩
      match d, hn, htd with
      | .agg u' ms', hn, htd =>
        simp only [Ty.named] at hn
        simp only [resolve, hn, Option.bind_eq_bind, Option.bind_some, htd, hq]

theorem truncInt_small (v : Int) (h : 0 ≤ v) (h2 : v < 2 ^ 31) : truncInt v = v := by
  unfold truncInt
  rw [Int.bmod_eq_of_le] <;> omega

theorem resolve_nil (c : Ty) (ds : List Desig) (h : resolve c ds = some []) : ds = [] := by
  match c, ds, h with
  | _, [], _ => rfl
  | .leaf k, d :: ds, h => cases d <;> simp [resolve] at h
  | .arr n e, .dot nm :: ds, h => simp [resolve] at h
  | .agg u ms, .idx v :: ds, h => simp [resolve] at h
  | .arr n e, .idx v :: ds, h =>
    simp only [resolve] at h
    split at h
    · simp at h
    · cases h
  | .agg u ms, .dot nm :: ds, h =>
    simp only [resolve, Option.bind_eq_bind, Option.bind_eq_some_iff, Option.some.injEq] at h
    obtain ⟨p, hp, t, ht, q, hq, he⟩ := h
    have hf := find_eq ms nm
    rw [hp] at hf
    obtain ⟨i, p', d, named, rfl, h2, h3, h4⟩ := hf
    cases he

theorem pDesig (n : Nat) (ihI : PInit fits n) (ihL : ∀ (m : Nat), m < n → PList fits m) :
    PDesig fits n := by
  intro r
  induction r with
  | nil =>
    intro T R b q c ds i its q' evs0 evsR tr tl σ hn hb hq hsm hres hp hr hop hso
    have hds := resolve_nil c ds hres
    subst hds
    rw [List.append_nil] at hp
    refine goes_congr fits 0 ?_ (ihI T R b q c i its q' evs0 evsR tr tl σ hn hb hq hsm hp hr hop hso)
    intro f _
    simp only [List.map_nil, List.nil_append]
    rw [desig] <;> simp [skip, bind, Except.bind]
  | cons x r ih =>
    intro T R b q c ds i its q' evs0 evsR tr tl σ hn hb hq hsm hres hp hr hop hso
    have hcat : q ++ x :: r = (q ++ [x]) ++ r := by simp
    rw [hcat] at hp
    have hpl := place_under fits R _ i q' evs0 hp
    have htc : T.at_ (b ++ q) = some c := by rw [at_append, hb]; exact hq
    have hkind : (σ (b ++ q)).kind = .list := by
      cases evs0 with
      | nil => exact absurd rfl hpl.1
      | cons ev evs0 =>
        obtain ⟨s, hs⟩ := hpl.2.2 ev (by simp)
        refine hso.1 (b ++ q) ?_ ?_
        · rw [under_path, ← hs]; simp
        · rw [under_path, ← hs]; simp
    have hpos := isize_pos i
    rcases resolve_step c ds x r hres with ⟨m, e, v, ds', rfl, rfl, hv0, hvn, rfl, hres'⟩ |
        ⟨u, ms, nm, ds', ds'', named, d, rfl, rfl, hf, hget, rfl, hres'⟩
    · have hm := hsm (b ++ q) m e htc
      have htr : truncInt v = v := truncInt_small v hv0 (by omega)
      have hk : v.toNat < (Ty.arr m e).cnt := by simp only [Ty.cnt]; omega
      have hq2 : R.at_ (q ++ [v.toNat]) = some e := by
        rw [at_snoc R _ q _ hq]; simp only [Ty.child]; rw [if_pos (by simpa [Ty.cnt] using hk)]
      have hop2 : Opened T σ (b ++ (q ++ [v.toNat])) := by
        rw [← List.append_assoc]
        exact opened_snoc T _ σ (b ++ q) _ hop htc (fun hx => by simp [isUnion] at hx)
      have g1 := ih T R b (q ++ [v.toNat]) e ds' i its q' evs0 evsR tr tl σ hn hb hq2 hsm hres' hp hr hop2 hso
      have g2 := goes_then fits true (isizes its) (ihL _ (by omega)) T R b q (.arr m e) v.toNat its _ tr tl σ _
        (Nat.le_refl _) hb hq hsm hk (Or.inl rfl) hop hso g1
      refine goes_congr fits 0 ?_ g2
      intro f _
      simp only [List.map_cons, Desig.toks, List.cons_append, desig, kind_self σ _ _ hkind, htr]
      rw [if_neg (by omega), if_neg (by omega), List.append_assoc]
    · have hk : x < (Ty.agg u ms).cnt := (mems_get_iff ms x).1 ⟨d, hget⟩
      have hq2 : R.at_ (q ++ [x]) = some d := by rw [at_snoc R _ q _ hq]; exact hget
      have htok : (if named = true then ds'.map Desig.toks ++ .eq :: (i.toks ++ aft its tr tl)
            else Tok.dot nm :: (ds'.map Desig.toks ++ .eq :: (i.toks ++ aft its tr tl))) =
          (if named = true then ds' else .dot nm :: ds').map Desig.toks ++ .eq :: (i.toks ++ aft its tr tl) := by
        cases named <;> rfl
      cases u with
      | false =>
        have hop2 : Opened T σ (b ++ (q ++ [x])) := by
          rw [← List.append_assoc]
          exact opened_snoc T _ σ (b ++ q) _ hop htc (fun hx => by simp [isUnion] at hx)
        have g1 := ih T R b (q ++ [x]) d _ i its q' evs0 evsR tr tl σ hn hb hq2 hsm hres' hp hr hop2 hso
        have g2 := goes_then fits true (isizes its) (ihL _ (by omega)) T R b q (.agg false ms) x its _ tr tl σ _
          (Nat.le_refl _) hb hq hsm hk (Or.inl rfl) hop hso g1
        refine goes_congr fits 0 ?_ g2
        intro f _
        simp only [List.map_cons, Desig.toks, List.cons_append, desig, kind_self σ _ _ hkind, hf, hget, htok]
        simp only [Bool.false_eq_true, if_false, List.append_assoc]
      | true =>
        have g1 := ih T R b (q ++ [x]) d _ i its q' evs0 evsR tr tl (σ.pay (b ++ q) (.mem x)) hn hb hq2 hsm
          hres' hp hr (opened_union T R b q _ x σ hb hq hop)
          (sound_sameKind T _ _ _ (sameKind_pay σ _ _) hso)
        have g2 := goes_union fits T R b q _ x its _ tr tl σ _ hb hq hk rfl g1
        refine goes_congr fits 0 ?_ g2
        intro f _
        simp only [List.map_cons, Desig.toks, List.cons_append, desig, kind_self σ _ _ hkind, hf, hget, htok]
        simp only [if_true, List.append_assoc]

def PLoop (n : Nat) : Prop :=
  ∀ (T R : Ty) (b : Path) (its : Items) (evs : List Ev) (tr : Bool) (tl : List Tok) (σ : Store),
    isizes its ≤ n → T.at_ b = some R → Small T → items fits R (next R []) its = some evs →
    Opened T σ b → Sound T (evs.map (Ev.under b)) σ →
    ∃ (N : Nat), ∀ (f : Nat), N ≤ f →
      bracedLoop fits f R b (aft its tr tl) σ true = .ok (tl, (evs.map (Ev.under b)).foldl (app T) σ)

theorem opened_goes (T : Ty) (b q : Path) (e1 : List Ev) (σ : Store) (hop : Opened T σ (b ++ q))
    (hp : ∀ (ev : Ev), ev ∈ e1 → q <+: ev.path) :
    Opened T ((e1.map (Ev.under b)).foldl (app T) σ) (b ++ q) := by
  refine opened_fold T σ (b ++ q) _ hop ?_
  intro ev hev
  obtain ⟨e, he, rfl⟩ := List.mem_map.1 hev
  rw [under_path, List.prefix_append_right_inj]
  exact hp e he

/-- A run, then the loop on the rest of the list. -/
theorem goes_loop (n : Nat) (ihP : PLoop fits n) (ne : Bool) (T R : Ty) (b : Path) (its : Items)
    (evs : List Ev) (tr : Bool) (tl : List Tok) (σ : Store) (run : Nat → InitList.R)
    (hn : isizes its ≤ n) (hb : T.at_ b = some R) (hsm : Small T)
    (hop : Opened T σ b) (hso : Sound T (evs.map (Ev.under b)) σ)
    (hg : Goes fits ne T R b [] its evs tr tl σ run) :
    ∃ (its' : Items) (ρ : Store) (N : Nat), isizes its' ≤ isizes its ∧ ∀ (f : Nat), N ≤ f →
      run f = .ok (aft its' tr tl, ρ) ∧
      bracedLoop fits f R b (aft its' tr tl) ρ true = .ok (tl, (evs.map (Ev.under b)).foldl (app T) σ) := by
  obtain ⟨its1, e1, e2, rfl, hi, hpr, hs, _, N, hN⟩ := hg
  rw [List.map_append, sound_append] at hso
  have hop1 := opened_goes T b [] e1 σ (by simpa using hop) hpr
  rw [List.append_nil] at hop1
  obtain ⟨M, hM⟩ := ihP T R b its1 e2 tr tl _ (by omega) hb hsm hi hop1 hso.2
  refine ⟨its1, (e1.map (Ev.under b)).foldl (app T) σ, max N M, hs, ?_⟩
  intro f hf
  refine ⟨hN f (by omega), ?_⟩
  rw [hM f (by omega), List.map_append, List.foldl_append]

theorem loop_desig (f : Nat) (R : Ty) (b : Path) (t t2 : List Tok) (σ : Store) (sep : Bool)
    (hrb : headIs .rb t = false) (hs : sepBy sep t = .ok t2) (hd : isDesig t2 = true) :
    bracedLoop fits (f + 1) R b t σ sep = (do
      let (t, σ) ← desig fits f R b t2 σ
      bracedLoop fits f R b t σ true) := by
  rw [bracedLoop]
  · rw [hs]
    simp only [bind, Except.bind]
    match sep, t2, hd with
    | true, .idx v :: t2, _ => rfl
    | true, .dot v :: t2, _ => rfl
    | false, .idx v :: t2, _ => rfl
    | false, .dot v :: t2, _ => rfl
  · intro r hr
    subst hr
    simp [headIs] at hrb

theorem items_desig (R : Ty) (cur : Option Path) (d : Desig) (ds : List Desig) (i : Ini) (rest : Items)
    (evs : List Ev) (h : items fits R cur (.cons (d :: ds) i rest) = some evs) :
    ∃ (r q' : Path) (evs0 evsR : List Ev), resolve R (d :: ds) = some r ∧
      place fits R r i = some (q', evs0) ∧ items fits R (next R q') rest = some evsR ∧ evs = evs0 ++ evsR := by
  simp only [items, List.isEmpty_cons, Bool.false_eq_true, if_false, Option.bind_eq_bind,
    Option.bind_eq_some_iff] at h
  obtain ⟨r, hr, ⟨q', evs0⟩, hp, evsR, hi, he⟩ := h
  cases he
  exact ⟨r, q', evs0, evsR, hr, hp, hi, rfl⟩

theorem items_plain (R : Ty) (cur : Option Path) (i : Ini) (rest : Items)
    (evs : List Ev) (h : items fits R cur (.cons [] i rest) = some evs) :
    ∃ (r q' : Path) (evs0 evsR : List Ev), cur = some r ∧
      place fits R r i = some (q', evs0) ∧ items fits R (next R q') rest = some evsR ∧ evs = evs0 ++ evsR := by
  simp only [items, List.isEmpty_nil, if_true, Option.bind_eq_bind, Option.bind_eq_some_iff] at h
  obtain ⟨r, hr, ⟨q', evs0⟩, hp, evsR, hi, he⟩ := h
  cases he
  exact ⟨r, q', evs0, evsR, hr, hp, hi, rfl⟩

theorem desigToks_cons (d : Desig) (ds : List Desig) (t : List Tok) :
    desigToks (d :: ds) ++ t = (d :: ds).map Desig.toks ++ .eq :: t := by
  simp [desigToks]

/-- An item with designators, and then the loop. -/
theorem desig_loop (n : Nat) (ihD : PDesig fits n) (ihP : ∀ (m : Nat), m < n → PLoop fits m) (T R : Ty) (b : Path)
    (cur : Option Path) (d : Desig) (ds : List Desig) (i : Ini) (rest : Items) (evs : List Ev) (tr : Bool)
    (tl : List Tok) (σ : Store) (hn : isize i + isizes rest ≤ n) (hb : T.at_ b = some R) (hsm : Small T)
    (h : items fits R cur (.cons (d :: ds) i rest) = some evs)
    (hop : Opened T σ b) (hso : Sound T (evs.map (Ev.under b)) σ) :
    ∃ (N : Nat), ∀ (f : Nat), N ≤ f →
      (do
        let (t, σ) ← desig fits f R b (desigToks (d :: ds) ++ (i.toks ++ aft rest tr tl)) σ
        bracedLoop fits f R b t σ true) = .ok (tl, (evs.map (Ev.under b)).foldl (app T) σ) := by
  obtain ⟨r, q', evs0, evsR, hr, hp, hi, rfl⟩ := items_desig fits R cur d ds i rest evs h
  have g1 := ihD r T R b [] R (d :: ds) i rest q' evs0 evsR tr tl σ hn hb rfl hsm hr
    (by simpa using hp) hi (by simpa using hop) hso
  rw [List.append_nil] at g1
  have hpos := isize_pos i
  obtain ⟨its', ρ, N, _, hN⟩ := goes_loop fits (isizes rest) (ihP _ (by omega)) true T R b rest _ tr tl σ _
    (Nat.le_refl _) hb hsm hop hso g1
  refine ⟨N, ?_⟩
  intro f hf
  obtain ⟨h1, h2⟩ := hN f hf
  rw [desigToks_cons, h1]
  exact h2

theorem pLoop (n : Nat) (ihD : ∀ (m : Nat), m < n → PDesig fits m) (ihP : ∀ (m : Nat), m < n → PLoop fits m) :
    PLoop fits n := by
  intro T R b its evs tr tl σ hn hb hsm hi hop hso
  cases its with
  | nil =>
    simp only [items, Option.some.injEq] at hi
    subst hi
    refine ⟨1, ?_⟩
    intro f hf
    obtain ⟨g, rfl⟩ : ∃ g, f = g + 1 := ⟨f - 1, by omega⟩
    cases tr with
    | false => simp [aft, Items.toks, bracedLoop]
    | true =>
      have : aft .nil true tl = .comma :: .rb :: tl := rfl
      rw [this, bracedLoop] <;> simp [sepBy, skip, bind, Except.bind]
  | cons ds i rest =>
    cases ds with
    | nil => simp [items, next] at hi
    | cons d ds =>
      have hsz := isizes_cons (d :: ds) i rest
      obtain ⟨N, hN⟩ := desig_loop fits (isize i + isizes rest) (ihD _ (by omega)) (fun m hm => ihP m (by omega))
        T R b _ d ds i rest evs tr tl σ (Nat.le_refl _) hb hsm hi hop hso
      refine ⟨N + 1, ?_⟩
      intro f hf
      obtain ⟨g, rfl⟩ : ∃ g, f = g + 1 := ⟨f - 1, by omega⟩
      rw [aft_cons, loop_desig fits g R b _ (desigToks (d :: ds) ++ (i.toks ++ aft rest tr tl)) σ true rfl rfl
        (desigToks_ne d ds _)]
      exact hN g (by omega)

theorem list_stop (f : Nat) (R : Ty) (b : Path) (t : List Tok) (σ : Store)
    (h : headIs .rb t = true ∨ isDesig t = true) : list fits (f + 1) R b t σ 0 = .ok (t, σ) := by
  cases hc : R.child 0 with
  | none => exact list_full fits f R b 0 t σ hc
  | some d =>
    rcases h with h | h
    · exact list_end fits f R d b 0 t t σ hc (Or.inl h)
    · exact list_end fits f R d b 0 t t σ hc (Or.inr ⟨rfl, Or.inr h⟩)

theorem pBraced (n : Nat) (ihI : ∀ (m : Nat), m < n → PInit fits m) (ihL : ∀ (m : Nat), m < n → PList fits m)
    (ihD : ∀ (m : Nat), m < n → PDesig fits m) (ihP : ∀ (m : Nat), m < n → PLoop fits m) :
    PBraced fits n := by
  intro T R b its evs tr tl σ hn hb hsm hi hop hun hso
  cases its with
  | nil =>
    simp only [items, Option.some.injEq] at hi
    subst hi
    refine ⟨2, ?_⟩
    intro f hf
    obtain ⟨g, rfl⟩ : ∃ g, f = g + 2 := ⟨f - 2, by omega⟩
    rw [braced]
    simp only [inner]
    rw [list_stop fits g R b _ σ (Or.inl rfl)]
    simp [bind, Except.bind, bracedLoop]
  | cons ds i rest =>
    cases ds with
    | cons d ds =>
      have hsz := isizes_cons (d :: ds) i rest
      obtain ⟨N, hN⟩ := desig_loop fits (isize i + isizes rest) (ihD _ (by omega)) (fun m hm => ihP m (by omega))
        T R b _ d ds i rest evs tr tl σ (Nat.le_refl _) hb hsm hi hop hso
      refine ⟨N + 2, ?_⟩
      intro f hf
      obtain ⟨g, rfl⟩ : ∃ g, f = g + 2 := ⟨f - 2, by omega⟩
      rw [braced]
      simp only [inner]
      rw [list_stop fits g R b _ σ (Or.inr (desigToks_ne d ds _))]
      simp only [bind, Except.bind, bne_self_eq_false]
      have hrb : headIs .rb (desigToks (d :: ds) ++ (i.toks ++ aft rest tr tl)) = false := by
        cases d <;> rfl
      rw [loop_desig fits g R b _ _ σ false hrb rfl (desigToks_ne d ds _)]
      exact hN g (by omega)
    | nil =>
      have hsz := isizes_cons [] i rest
      obtain ⟨r, q', evs0, evsR, hr, hp, hi2, rfl⟩ := items_plain fits R _ i rest evs hi
      have hk : 0 < R.cnt := by
        unfold first at hr
        split at hr
        · assumption
        · cases hr
      have hr0 : r = [0] := by
        unfold first at hr
        rw [if_pos hk] at hr
        cases hr; rfl
      subst hr0
      obtain ⟨c0, hc0⟩ := (child_iff R 0).2 hk
      have hq0 : R.at_ ([] ++ [0]) = some c0 := by rw [at_snoc R R [] 0 rfl]; exact hc0
      have hop0 : Opened T σ (b ++ ([] ++ [0])) := by
        rw [List.nil_append]
        exact opened_snoc T R σ b 0 hop hb (fun hx => hun hx hk)
      have hpos := isize_pos i
      have g1 := ihI (isize i + isizes rest) (by omega) T R b ([] ++ [0]) c0 i rest q' evs0 evsR tr tl σ
        (Nat.le_refl _) hb hq0 hsm (by simpa using hp) hi2 hop0 hso
      have g2 := goes_then fits true (isizes rest) (ihL _ (by omega)) T R b [] R 0 rest _ tr tl σ _
        (Nat.le_refl _) hb rfl hsm hk (Or.inr rfl) (by simpa using hop) hso g1
      obtain ⟨its', ρ, N, hle, hN⟩ := goes_loop fits (isizes rest) (ihP _ (by omega)) true T R b rest _ tr tl σ _
        (Nat.le_refl _) hb hsm hop hso g2
      refine ⟨N + 2, ?_⟩
      intro f hf
      obtain ⟨g, rfl⟩ : ∃ g, f = g + 2 := ⟨f - 2, by omega⟩
      have h1 := (hN g (by omega)).1
      have h2 := (hN (g + 1) (by omega)).2
      have hd := ini_head i (aft rest tr tl)
      have hlist : list fits (g + 1) R b (i.toks ++ aft rest tr tl) σ 0 = .ok (aft its' tr tl, ρ) := by
        rw [list_step fits g R c0 b 0 _ (i.toks ++ aft rest tr tl) σ hc0 hd.1 rfl hd.1 hd.2]
        simpa using h1
      rw [braced]
      simp only [inner, desigToks, List.isEmpty_nil, if_true, List.nil_append, hlist, bind, Except.bind]
      have hlen : ((aft its' tr tl).length != (i.toks ++ aft rest tr tl).length) = true := by
        simp only [isize, isizes] at hpos hle
        simp only [aft, List.length_append, bne_iff_ne]
        omega
      rw [hlen]
      exact h2

/-- All of it. -/
theorem parse_all (n : Nat) :
    PInit fits n ∧ PList fits n ∧ PDesig fits n ∧ PLoop fits n ∧ PBraced fits n := by
  induction n using Nat.strongRecOn with
  | _ n ih =>
    have hL := pList fits n (fun m hm => (ih m hm).1) (fun m hm => (ih m hm).2.1)
    have hB := pBraced fits n (fun m hm => (ih m hm).1) (fun m hm => (ih m hm).2.1)
      (fun m hm => (ih m hm).2.2.1) (fun m hm => (ih m hm).2.2.2.1)
    have hP := pLoop fits n (fun m hm => (ih m hm).2.2.1) (fun m hm => (ih m hm).2.2.2.1)
    have hI := pInit fits n (fun m hm => (ih m hm).2.1) (fun m hm => (ih m hm).2.2.2.2)
    exact ⟨hI, hL, pDesig fits n hI (fun m hm => (ih m hm).2.1), hP, hB⟩

/-- The parser has the effect of the events. -/
theorem init2_ok (T : Ty) (i : Ini) (evs : List Ev) (tl : List Tok) (σ : Store) (hsm : Small T)
    (h : events fits T i = some evs) (hso : Sound T evs σ) :
    ∃ (N : Nat), ∀ (f : Nat), N ≤ f →
      init2 fits f T [] (i.toks ++ tl) σ = .ok (tl, evs.foldl (app T) σ) := by
  cases i with
  | e s =>
    simp only [events] at h
    split at h
    · rename_i ht
      cases h
      refine ⟨1, ?_⟩
      intro f hf
      obtain ⟨g, rfl⟩ : ∃ g, f = g + 1 := ⟨f - 1, by omega⟩
      have := give_ok fits T T [] s σ rfl ht (opened_nil T σ) tl g
      rw [under_nil] at this
      exact this
    · cases h
  | br its tr =>
    simp only [events] at h
    rw [br_toks]
    have := pObj fits (isizes its) (parse_all fits _).2.2.2.2 T T [] its tr evs tl σ (Nat.le_refl _) rfl hsm h
      (opened_nil T σ) (by rw [under_nil]; exact hso)
    rw [under_nil] at this
    exact this

end
end Slimcc.InitL
