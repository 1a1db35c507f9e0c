import Verif.Lemmas.InitDecide
import Verif.Model.InitFlex

/-!
Arrays of unknown length.
-/

set_option autoImplicit false

namespace Slimcc.InitL

open InitList InitSpec

/-! ### What is taken from the tokens does not depend on the nodes -/

def toksOf : InitList.R → M (List Tok)
  | .ok (t, _) => .ok t
  | .error e => .error e

theorem toksOf_bind (x y : InitList.R) (g h : List Tok × Store → InitList.R) (hxy : toksOf x = toksOf y)
    (hgh : ∀ (t : List Tok) (σ τ : Store), toksOf (g (t, σ)) = toksOf (h (t, τ))) :
    toksOf (x >>= g) = toksOf (y >>= h) := by
  cases x with
  | error e =>
    cases y with
    | error e' => simpa [toksOf, bind, Except.bind] using hxy
    | ok y => simp [toksOf] at hxy
  | ok x =>
    cases y with
    | error e' => simp [toksOf] at hxy
    | ok y =>
      obtain ⟨t, σ⟩ := x
      obtain ⟨t', σ'⟩ := y
      simp only [toksOf, Except.ok.injEq] at hxy
      subst hxy
      exact hgh t σ σ'

section
variable (fits : Src → Ty → Bool)

structure Indep (f : Nat) : Prop where
  init2 : ∀ (c : Ty) (p q : Path) (t : List Tok) (σ τ : Store),
    toksOf (init2 fits f c p t σ) = toksOf (init2 fits f c q t τ)
  list : ∀ (c : Ty) (p q : Path) (t : List Tok) (σ τ : Store) (i : Nat),
    toksOf (list fits f c p t σ i) = toksOf (list fits f c q t τ i)
  braced : ∀ (c : Ty) (p q : Path) (t : List Tok) (σ τ : Store),
    toksOf (braced fits f c p t σ) = toksOf (braced fits f c q t τ)
  loop : ∀ (c : Ty) (p q : Path) (t : List Tok) (σ τ : Store) (s : Bool),
    toksOf (bracedLoop fits f c p t σ s) = toksOf (bracedLoop fits f c q t τ s)
  desig : ∀ (c : Ty) (p q : Path) (t : List Tok) (σ τ : Store),
    toksOf (desig fits f c p t σ) = toksOf (desig fits f c q t τ)

theorem indep (f : Nat) : Indep fits f := by
  induction f with
  | zero =>
    constructor <;> intros <;> simp [init2, list, braced, bracedLoop, desig]
  | succ f ih =>
    constructor
    · intro c p q t σ τ
      cases c with
      | leaf k =>
        simp only [init2]
        split
        · refine toksOf_bind _ _ _ _ (ih.init2 _ _ _ _ _ _) ?_
          intro t σ τ
          cases skip .rb t <;> rfl
        · cases assign t <;> rfl
      | arr n b =>
        simp only [init2]
        split
        · unfold strInit; split <;> rfl
        · split
          · exact ih.braced _ _ _ _ _ _
          · exact ih.list _ _ _ _ _ _ _
      | agg u ms =>
        cases u with
        | false =>
          simp only [init2]
          split
          · exact ih.braced _ _ _ _ _ _
          · cases assign t with
            | error e => rfl
            | ok x =>
              simp only [bind, Except.bind]
              split
              · rfl
              · exact ih.list _ _ _ _ _ _ _
        | true =>
          simp only [init2]
          split
          · exact ih.braced _ _ _ _ _ _
          · cases assign t with
            | error e => rfl
            | ok x =>
              simp only [bind, Except.bind]
              split
              · rfl
              · split
                · exact ih.init2 _ _ _ _ _ _
                · rfl
    · intro c p q t σ τ i
      simp only [list]
      split
      · rfl
      · split
        · rfl
        · cases sepBy (i != 0) t with
          | error e => rfl
          | ok t2 =>
            simp only [bind, Except.bind]
            split
            · rfl
            · exact toksOf_bind _ _ _ _ (ih.init2 _ _ _ _ _ _) (fun t σ τ => ih.list _ _ _ _ _ _ _)
    · intro c p q t σ τ
      simp only [braced]
      exact toksOf_bind _ _ _ _ (ih.list _ _ _ _ _ _ _) (fun t σ τ => ih.loop _ _ _ _ _ _ _)
    · intro c p q t σ τ s
      rw [bracedLoop.eq_def, bracedLoop.eq_def]
      dsimp only
      split
      · rfl
      · cases sepBy s t with
        | error e => rfl
        | ok t2 =>
          simp only [bind, Except.bind]
          split
          · rfl
          · split
            · exact toksOf_bind _ _ _ _ (ih.desig _ _ _ _ _ _) (fun t σ τ => ih.loop _ _ _ _ _ _ _)
            · cases skipExcess f t2 with
              | error e => rfl
              | ok t3 => exact ih.loop _ _ _ _ _ _ _
    · intro c p q t σ τ
      rw [desig.eq_def, desig.eq_def]
      dsimp only
      match t with
      | .idx v :: r =>
        dsimp only
        cases c with
        | leaf k => rfl
        | agg u ms => rfl
        | arr n b =>
          dsimp only
          split
          · rfl
          · split
            · rfl
            · exact toksOf_bind _ _ _ _ (ih.desig _ _ _ _ _ _) (fun t σ τ => ih.list _ _ _ _ _ _ _)
      | .dot nm :: r =>
        dsimp only
        cases c with
        | leaf k => rfl
        | arr n b => rfl
        | agg u ms =>
          dsimp only
          cases ms.find nm with
          | none => rfl
          | some x =>
            dsimp only
            cases ms.get x.1 with
            | none => rfl
            | some d =>
              dsimp only
              split
              · exact ih.desig _ _ _ _ _ _
              · exact toksOf_bind _ _ _ _ (ih.desig _ _ _ _ _ _) (fun t σ τ => ih.list _ _ _ _ _ _ _)
      | [] => simp [skip, bind, Except.bind]
      | .lb :: r => simp [skip, bind, Except.bind]
      | .rb :: r => simp [skip, bind, Except.bind]
      | .comma :: r => simp [skip, bind, Except.bind]
      | .src s :: r => simp [skip, bind, Except.bind]
      | .eq :: r =>
        simp only [skip, if_true, bind, Except.bind]
        exact ih.init2 _ _ _ _ _ _

/-! ### Counting -/

theorem extent_append (a b : List Ev) : extent (a ++ b) = max (extent a) (extent b) := by
  induction a with
  | nil => simp [extent]
  | cons e a ih => simp only [List.cons_append, extent, ih]; omega

theorem extent_under (k : Nat) (e : List Ev) (h : ∀ (ev : Ev), ev ∈ e → [k] <+: ev.path) (hne : e ≠ []) :
    extent e = k + 1 := by
  induction e with
  | nil => exact absurd rfl hne
  | cons x e ih =>
    have hx : reach x = k + 1 := by
      obtain ⟨r, hr⟩ := h x (by simp)
      simp only [reach, ← hr, List.cons_append, List.nil_append]
    simp only [extent, hx]
    by_cases he : e = []
    · subst he; simp [extent]
    · rw [ih (fun ev hev => h ev (by simp [hev])) he]; omega

theorem toksOf_ok (x y : InitList.R) (t : List Tok) (σ : Store) (h : toksOf x = toksOf y) (hx : x = .ok (t, σ)) :
    ∃ (τ : Store), y = .ok (t, τ) := by
  subst hx
  cases y with
  | error e => simp [toksOf] at h
  | ok y =>
    obtain ⟨t', τ⟩ := y
    simp only [toksOf, Except.ok.injEq] at h
    subst h
    exact ⟨τ, rfl⟩

theorem next_arr (n : Nat) (b : Ty) (k : Nat) (h : k < n) :
    next (.arr n b) [k] = if k + 1 < n then some [k + 1] else none := by
  simp [next, Ty.child, h, isUnion, Ty.cnt]

theorem count_end (f : Nat) (b : Ty) (i mx : Int) (tr : Bool) (tl : List Tok) (δ : Store) (hi : i ≠ 0) :
    count fits (f + 1) b i mx (aft .nil tr tl) δ = .ok mx := by
  cases tr with
  | false => simp [aft, Items.toks, count]
  | true =>
    have : aft .nil true tl = .comma :: .rb :: tl := rfl
    rw [this, count.eq_def]
    have h0 : (i != 0) = true := by simpa using hi
    simp [sepBy, skip, bind, Except.bind, h0]

/-- One round with an initializer, `sep` said by what comes before it. -/
theorem count_plain (f : Nat) (b : Ty) (i mx : Int) (t t2 t3 : List Tok) (δ δ' : Store)
    (hrb : headIs .rb t = false) (hs : sepBy (i != 0) t = .ok t2) (h1 : headIs .rb t2 = false)
    (h2 : isDesig t2 = false) (hr : init2 fits f b [] t2 δ = .ok (t3, δ')) (hi : i + 1 < 2 ^ 31) :
    count fits (f + 1) b i mx t δ = count fits f b (i + 1) (max mx (i + 1)) t3 δ' := by
  rw [count.eq_def]
  dsimp only
  split
  · simp [headIs] at hrb
  · rw [hs]
    simp only [bind, Except.bind]
    split
    · simp [headIs] at h1
    · simp [isDesig] at h2
    · rw [hr]
      simp only
      rw [if_neg (by omega)]

theorem count_desig (f : Nat) (b : Ty) (i mx v : Int) (t r t3 : List Tok) (δ δ' : Store)
    (hrb : headIs .rb t = false) (hs : sepBy (i != 0) t = .ok (.idx v :: r))
    (hr : desig fits f b [] r δ = .ok (t3, δ')) (hv : truncInt v = v) (hi : v + 1 < 2 ^ 31) :
    count fits (f + 1) b i mx t δ = count fits f b (v + 1) (max mx (v + 1)) t3 δ' := by
  rw [count.eq_def]
  dsimp only
  split
  · simp [headIs] at hrb
  · rw [hs]
    simp only [bind, Except.bind]
    rw [hr]
    simp only [hv]
    rw [if_neg (by omega)]

/-- The elements from `k` on. -/
def PCount (n : Nat) (b : Ty) (z : Nat) : Prop :=
  ∀ (its : Items) (evs : List Ev) (k mx : Nat) (tr : Bool) (tl : List Tok) (σ : Store),
    isizes its ≤ z → items fits (.arr n b) (if k < n then some [k] else none) its = some evs →
    Sound (.arr n b) evs σ → extent evs < n → k ≠ 0 →
    ∃ (N : Nat), ∀ (f : Nat), N ≤ f → ∀ (δ : Store),
      count fits f b k mx (aft its tr tl) δ = .ok ((max mx (extent evs) : Nat) : Int)

theorem opened_elem (n : Nat) (b : Ty) (σ : Store) (k : Nat) : Opened (.arr n b) σ ([] ++ [k]) := by
  intro u i r c hp hu hx
  cases u with
  | nil => simp only [Ty.at_, Option.some.injEq] at hu; subst hu; simp [isUnion] at hx
  | cons y u => cases u <;> simp at hp

/-- After the run for one element. -/
theorem count_goes (n : Nat) (b : Ty) (z : Nat) (hsm : Small (.arr n b)) (ih : PCount fits n b z) (k mx : Nat) (its : Items) (evs : List Ev)
    (tr : Bool) (tl : List Tok) (σ : Store) (run : Nat → InitList.R) (hz : isizes its ≤ z) (hk : k < n)
    (hso : Sound (.arr n b) evs σ) (he : extent evs < n)
    (hg : Goes fits true (.arr n b) (.arr n b) [] ([] ++ [k]) its evs tr tl σ run) :
    k + 1 < 2 ^ 31 ∧ ∃ (its' : Items) (ρ : Store) (N : Nat), ∀ (f : Nat), N ≤ f → run f = .ok (aft its' tr tl, ρ) ∧
      ∀ (δ : Store), count fits f b ((k : Int) + 1) (max (mx : Int) ((k : Int) + 1)) (aft its' tr tl) δ =
        .ok ((max mx (extent evs) : Nat) : Int) := by
  obtain ⟨its', e1, e2, rfl, hi, hpr, hs, hne, N, hN⟩ := hg
  simp only [List.nil_append] at hi hpr
  rw [next_arr n b k hk] at hi
  rw [sound_append] at hso
  have hx := extent_under k e1 hpr (hne rfl)
  rw [extent_append, hx] at he
  have hsm2 := hsm [] n b rfl
  refine ⟨by omega, ?_⟩
  obtain ⟨M, hM⟩ := ih its' e2 (k + 1) (max mx (k + 1)) tr tl _ (by omega) hi hso.2 (by omega) (by omega)
  refine ⟨its', (e1.map (Ev.under [])).foldl (app (.arr n b)) σ, max N M, ?_⟩
  intro f hf
  refine ⟨hN f (by omega), ?_⟩
  intro δ
  have := hM f (by omega) δ
  rw [extent_append, hx]
  have e1' : ((k + 1 : Nat) : Int) = (k : Int) + 1 := by omega
  have e2' : ((max mx (k + 1) : Nat) : Int) = max (mx : Int) ((k : Int) + 1) := by omega
  rw [e1', e2'] at this
  rw [this]
  congr 2
  omega

/-- One item, from the position `k`. -/
theorem count_item (n : Nat) (b : Ty) (z : Nat) (hsm : Small (.arr n b)) (ih : PCount fits n b z) (k mx : Nat)
    (ds : List Desig) (i : Ini) (rest : Items) (evs : List Ev)
    (tr : Bool) (tl : List Tok) (t : List Tok) (σ : Store) (hz : isizes rest ≤ z)
    (h : items fits (.arr n b) (if k < n then some [k] else none) (.cons ds i rest) = some evs)
    (hso : Sound (.arr n b) evs σ) (he : extent evs < n) (hrb : headIs .rb t = false)
    (hs : sepBy ((k : Int) != 0) t = .ok (desigToks ds ++ (i.toks ++ aft rest tr tl))) :
    ∃ (N : Nat), ∀ (f : Nat), N ≤ f → ∀ (δ : Store),
      count fits f b k mx t δ = .ok ((max mx (extent evs) : Nat) : Int) := by
  cases ds with
  | nil =>
    obtain ⟨r, q', evs0, evsR, hr, hp, hi, rfl⟩ := items_plain fits _ _ i rest evs h
    have hk : k < n := by
      split at hr
      · assumption
      · cases hr
    rw [if_pos hk] at hr
    simp only [Option.some.injEq] at hr
    subst hr
    have hat : Ty.at_ (.arr n b) ([] ++ [k]) = some b := by simp [Ty.at_, Ty.child, hk]
    have hg := (parse_all fits (isize i + isizes rest)).1 (.arr n b) (.arr n b) [] ([] ++ [k]) b i rest q' evs0 evsR tr tl σ
      (Nat.le_refl _) rfl hat hsm hp hi (opened_elem n b σ k) (by rw [under_nil]; exact hso)
    obtain ⟨hk2, its', ρ, N, hN⟩ := count_goes fits n b z hsm ih k mx rest _ tr tl σ _ hz hk hso he hg
    refine ⟨N + 1, ?_⟩
    intro f hf δ
    obtain ⟨g, rfl⟩ : ∃ g, f = g + 1 := ⟨f - 1, by omega⟩
    obtain ⟨h1, h2⟩ := hN g (by omega)
    obtain ⟨τ, hτ⟩ := toksOf_ok _ _ _ _ ((indep fits g).init2 b _ [] _ σ δ) h1
    have hd := ini_head i (aft rest tr tl)
    simp only [desigToks, List.isEmpty_nil, if_true, List.nil_append] at hs
    rw [count_plain fits g b k mx t _ _ δ τ hrb hs hd.1 hd.2 hτ (by omega)]
    exact h2 τ
  | cons d ds =>
    obtain ⟨r, q', evs0, evsR, hr, hp, hi, rfl⟩ := items_desig fits _ _ d ds i rest evs h
    cases d with
    | dot nm => simp [resolve] at hr
    | idx v =>
      simp only [resolve] at hr
      split at hr
      · rename_i hv
        simp only [Option.map_eq_some_iff] at hr
        obtain ⟨r', hr', rfl⟩ := hr
        obtain ⟨m, rfl⟩ : ∃ m : Nat, v = m := ⟨v.toNat, by omega⟩
        have hm : m < n := by omega
        have hsm2 := hsm [] n b rfl
        simp only [Int.toNat_natCast] at hp
        have hat : Ty.at_ (.arr n b) ([] ++ [m]) = some b := by simp [Ty.at_, Ty.child, hm]
        have hg := (parse_all fits (isize i + isizes rest)).2.2.1 r' (.arr n b) (.arr n b) [] ([] ++ [m]) b ds i rest q' evs0 evsR tr tl σ
          (Nat.le_refl _) rfl hat hsm hr' (by simpa using hp) hi (opened_elem n b σ m) (by rw [under_nil]; exact hso)
        obtain ⟨hk2, its', ρ, N, hN⟩ := count_goes fits n b z hsm ih m mx rest _ tr tl σ _ hz hm hso he hg
        refine ⟨N + 1, ?_⟩
        intro f hf δ
        obtain ⟨g, rfl⟩ : ∃ g, f = g + 1 := ⟨f - 1, by omega⟩
        obtain ⟨h1, h2⟩ := hN g (by omega)
        obtain ⟨τ, hτ⟩ := toksOf_ok _ _ _ _ ((indep fits g).desig b _ [] _ σ δ) h1
        rw [desigToks_cons] at hs
        rw [count_desig fits g b k mx m t _ _ δ τ hrb hs hτ (truncInt_small _ (by omega) (by omega)) (by omega)]
        exact h2 τ
      · cases hr

theorem count_all (n : Nat) (b : Ty) (hsm : Small (.arr n b)) (z : Nat) : PCount fits n b z := by
  induction z using Nat.strongRecOn with
  | _ z ih =>
    intro its evs k mx tr tl σ hz h hso he hk
    cases its with
    | nil =>
      simp only [items, Option.some.injEq] at h
      subst h
      refine ⟨1, ?_⟩
      intro f hf δ
      obtain ⟨g, rfl⟩ : ∃ g, f = g + 1 := ⟨f - 1, by omega⟩
      rw [count_end fits g b k mx tr tl δ (by omega)]
      simp [extent]
    | cons ds i rest =>
      have hsz := isizes_cons ds i rest
      have hpos := isize_pos i
      refine count_item fits n b (isizes rest) hsm (ih _ (by omega)) k mx ds i rest evs tr tl _ σ (Nat.le_refl _) h hso he ?_ ?_
      · rw [aft_cons]; rfl
      · rw [aft_cons]
        have : ((k : Int) != 0) = true := by simp; omega
        rw [this]; rfl

theorem count_ok (n : Nat) (b : Ty) (hsm : Small (.arr n b)) (its : Items) (evs : List Ev) (tr : Bool)
    (tl : List Tok) (σ : Store) (h : items fits (.arr n b) (first (.arr n b)) its = some evs)
    (hso : Sound (.arr n b) evs σ) (he : extent evs < n) :
    ∃ (N : Nat), ∀ (f : Nat), N ≤ f → ∀ (δ : Store),
      count fits f b 0 0 (inner its tr tl) δ = .ok ((extent evs : Nat) : Int) := by
  cases its with
  | nil =>
    simp only [items, Option.some.injEq] at h
    subst h
    refine ⟨1, ?_⟩
    intro f hf δ
    obtain ⟨g, rfl⟩ : ∃ g, f = g + 1 := ⟨f - 1, by omega⟩
    simp [inner, count, extent]
  | cons ds i rest =>
    obtain ⟨N, hN⟩ := count_item fits n b (isizes rest) hsm (count_all fits n b hsm _) 0 0 ds i rest evs tr tl
      (inner (.cons ds i rest) tr tl) σ (Nat.le_refl _) h hso he
      (by
        simp only [inner]
        cases ds with
        | nil => simpa [desigToks] using (ini_head i (aft rest tr tl)).1
        | cons d ds => cases d <;> rfl)
      (by simp [inner, sepBy])
    exact ⟨N, fun f hf δ => by simpa using hN f hf δ⟩

/-! ### The length does not matter as long as it suffices -/

theorem at_shrink (n m : Nat) (b : Ty) (x : Nat) (p : Path) (hn : x < n) (hm : x < m) :
    Ty.at_ (.arr n b) (x :: p) = Ty.at_ (.arr m b) (x :: p) := by
  simp [Ty.at_, Ty.child, hn, hm]

theorem place_shrink (n m : Nat) (b : Ty) (x : Nat) (p : Path) (i : Ini) (hn : x < n) (hm : x < m) :
    place fits (.arr n b) (x :: p) i = place fits (.arr m b) (x :: p) i := by
  cases i with
  | e s => simp only [place, at_shrink n m b x p hn hm]
  | br its tr => simp only [place, at_shrink n m b x p hn hm]

theorem extent_mem (evs : List Ev) (ev : Ev) (h : ev ∈ evs) : reach ev ≤ extent evs := by
  induction evs with
  | nil => cases h
  | cons e evs ih =>
    simp only [extent]
    rcases List.mem_cons.1 h with rfl | h
    · omega
    · have := ih h; omega

theorem place_reach (t : Ty) (x : Nat) (p : Path) (i : Ini) (q : Path) (evs : List Ev)
    (h : place fits t (x :: p) i = some (q, evs)) : x < extent evs ∧ ∃ (q' : Path), q = x :: q' := by
  obtain ⟨h1, h2, h3⟩ := place_under fits t (x :: p) i q evs h
  constructor
  · cases evs with
    | nil => exact absurd rfl h1
    | cons e evs =>
      obtain ⟨r, hr⟩ := h3 e (by simp)
      have : reach e = x + 1 := by simp only [reach, ← hr, List.cons_append]
      simp only [extent, this]; omega
  · obtain ⟨r, hr⟩ := h2
    exact ⟨p ++ r, by rw [← hr]; simp⟩

theorem place_lt (n : Nat) (b : Ty) (x : Nat) (p : Path) (i : Ini) (z : Path × List Ev)
    (h : place fits (.arr n b) (x :: p) i = some z) : x < n := by
  have : ∃ c, Ty.at_ (.arr n b) (x :: p) = some c := by
    cases i with
    | e s =>
      simp only [place, Option.bind_eq_bind, Option.bind_eq_some_iff] at h
      obtain ⟨c, hc, _⟩ := h; exact ⟨c, hc⟩
    | br its tr =>
      simp only [place, Option.bind_eq_bind, Option.bind_eq_some_iff] at h
      obtain ⟨c, hc, _⟩ := h; exact ⟨c, hc⟩
  obtain ⟨c, hc⟩ := this
  simp only [Ty.at_, Ty.child] at hc
  by_cases hx : x < n
  · exact hx
  · rw [if_neg hx] at hc; cases hc

theorem next_shrink (n m : Nat) (b : Ty) (x : Nat) (q : Path) (hn : x < n) (hm : x < m) (p : Path)
    (h : next (.arr n b) (x :: q) = some p) :
    ∃ (y : Nat) (r : Path), p = y :: r ∧ (y < m → next (.arr m b) (x :: q) = some p) := by
  simp only [next, Ty.child, hn, hm, if_true, isUnion, Ty.cnt, true_and] at h ⊢
  cases hq : next b q with
  | some r =>
    rw [hq] at h
    simp only [Option.some.injEq] at h
    subst h
    exact ⟨x, r, rfl, fun _ => rfl⟩
  | none =>
    rw [hq] at h
    simp only at h
    split at h
    · simp only [Option.some.injEq] at h
      subst h
      exact ⟨x + 1, [], rfl, fun hy => by simp [hy]⟩
    · cases h

theorem items_shrink (n m : Nat) (b : Ty) (its : Items) :
    ∀ (cur cur' : Option Path) (evs : List Ev),
      (∀ (p : Path), cur = some p → ∃ (y : Nat) (r : Path), p = y :: r ∧ (y < m → cur' = some p)) →
      items fits (.arr n b) cur its = some evs → extent evs ≤ m → items fits (.arr m b) cur' its = some evs := by
  match its with
  | .nil => intro cur cur' evs _ h _; simpa [items] using h
  | .cons ds i rest =>
    intro cur cur' evs hC h he
    have hh : ∃ (x : Nat) (p q : Path) (evs0 evsR : List Ev), place fits (.arr n b) (x :: p) i = some (q, evs0) ∧
        items fits (.arr n b) (next (.arr n b) q) rest = some evsR ∧ evs = evs0 ++ evsR ∧
        (x < m → (if ds.isEmpty then cur' else resolve (.arr m b) ds) = some (x :: p)) := by
      cases ds with
      | nil =>
        obtain ⟨r, q', a, b', h0, h1, h2, h3⟩ := items_plain fits _ cur i rest evs h
        obtain ⟨y, r', rfl, hy⟩ := hC r h0
        exact ⟨y, r', q', a, b', h1, h2, h3, by simpa using hy⟩
      | cons d ds =>
        obtain ⟨r, q', a, b', h0, h1, h2, h3⟩ := items_desig fits _ cur d ds i rest evs h
        cases d with
        | dot nm => simp [resolve] at h0
        | idx v =>
          simp only [resolve] at h0
          split at h0
          · rename_i hv
            simp only [Option.map_eq_some_iff] at h0
            obtain ⟨r', hr', rfl⟩ := h0
            refine ⟨v.toNat, r', q', a, b', h1, h2, h3, ?_⟩
            intro hx
            have : 0 ≤ v ∧ v < m := ⟨hv.1, by omega⟩
            simp [resolve, this, hr']
          · cases h0
    obtain ⟨x, p, q, evs0, evsR, hp, hi, rfl, hc⟩ := hh
    rw [extent_append] at he
    obtain ⟨hx, q', rfl⟩ := place_reach fits _ x p i q evs0 hp
    have hn := place_lt fits n b x p i _ hp
    have hm : x < m := by omega
    have := items_shrink n m b rest (next (.arr n b) (x :: q')) (next (.arr m b) (x :: q')) evsR
      (fun p hp => next_shrink n m b x q' hn hm p hp) hi (by omega)
    have hp2 := hp
    rw [place_shrink fits n m b x p i hn hm] at hp2
    have hcm := hc hm
    cases ds with
    | nil =>
      simp only [List.isEmpty_nil, if_true] at hcm
      simp [items, hcm, hp2, this]
    | cons d ds =>
      simp only [List.isEmpty_cons, Bool.false_eq_true, if_false] at hcm
      simp [items, hcm, hp2, this]

theorem units_extent (n i : Nat) (us : List Nat) : extent (units i n us) = if n = 0 ∨ us = [] then 0 else i + min n us.length := by
  induction n generalizing i us with
  | zero => simp [units, extent]
  | succ n ih =>
    cases us with
    | nil => simp [units, extent]
    | cons u us =>
      simp only [units, extent, reach, Ev.path, ih]
      by_cases hn : n = 0
      · subst hn; simp
      · by_cases hu : us = []
        · subst hu; simp
        · have : 0 < us.length := List.length_pos_iff.2 hu
          simp [hn, hu]; omega

theorem units_enough (i : Nat) (us : List Nat) : ∀ (n : Nat), us.length ≤ n → units i n us = units i us.length us := by
  induction us generalizing i with
  | nil => intro n _; cases n <;> simp [units]
  | cons u us ih =>
    intro n hn
    cases n with
    | zero => simp at hn
    | succ n => simp only [List.length_cons, units]; rw [ih (i + 1) n (by simpa using hn)]

/-- A string that is not cut off. -/
theorem give_extent (n sz : Nat) (w : Nat) (us : List Nat)
    (he : extent (give (.arr n (.leaf (some sz))) (.str w us)) < n) :
    extent (give (.arr n (.leaf (some sz))) (.str w us)) = us.length ∧
    give (.arr us.length (.leaf (some sz))) (.str w us) = give (.arr n (.leaf (some sz))) (.str w us) := by
  simp only [give, extent, reach, Ev.path, units_extent] at he ⊢
  have hn : n ≠ 0 := by omega
  by_cases hu : us = []
  · subst hu
    simp only [List.length_nil]
    refine ⟨by simp, ?_⟩
    cases n <;> simp [units]
  · simp only [hn, hu, false_or, if_false] at he ⊢
    refine ⟨by omega, ?_⟩
    rw [units_enough 0 us n (by omega)]

theorem objWith_other (b : Ty) (its : Items) (tr : Bool) :
    (∃ (sz w : Nat) (us : List Nat), b = .leaf (some sz) ∧ its = .cons [] (.e (.str w us)) .nil) ∨
    ∀ (n : Nat) (rest : Option (List Ev)), objWith rest (.arr n b) its tr = rest.map (.brace [] :: ·) := by
  match b, its with
  | .arr _ _, _ => right; intros; simp [objWith]
  | .agg _ _, _ => right; intros; simp [objWith]
  | .leaf none, _ => right; intros; simp [objWith]
  | .leaf (some sz), .nil => right; intros; simp [objWith]
  | .leaf (some sz), .cons (d :: ds) i rest => right; intros; simp [objWith]
  | .leaf (some sz), .cons [] (.br its2 tr2) rest => right; intros; simp [objWith]
  | .leaf (some sz), .cons [] (.e (.ex id)) rest => right; intros; simp [objWith]
  | .leaf (some sz), .cons [] (.e (.str w us)) (.cons ds j rest) => right; intros; simp [objWith]
  | .leaf (some sz), .cons [] (.e (.str w us)) .nil => left; exact ⟨sz, w, us, rfl, rfl⟩

/-- The events are the same for the array of the length they need. -/
theorem events_shrink (n : Nat) (b : Ty) (i : Ini) (evs : List Ev) (h : events fits (.arr n b) i = some evs)
    (he : extent evs < n) : events fits (.arr (extent evs) b) i = some evs := by
  cases i with
  | e s =>
    simp only [events] at h ⊢
    split at h
    · rename_i ht
      simp only [Option.some.injEq] at h
      subst h
      match b, s, ht with
      | .leaf (some sz), .str w us, ht =>
        obtain ⟨h1, h2⟩ := give_extent n sz w us he
        rw [h1, if_pos (by simpa [takes] using ht), h2]
      | .leaf none, s, ht => simp [takes] at ht
      | .arr .., s, ht => simp [takes] at ht
      | .agg .., s, ht => simp [takes] at ht
      | .leaf (some sz), .ex d, ht => simp [takes] at ht
    · cases h
  | br its tr =>
    simp only [events] at h ⊢
    rcases arr_obj fits n b its tr evs [] h with ⟨sz, us, rfl, rfl, rfl, rfl⟩ | ⟨hs, a, ha, rfl⟩
    · obtain ⟨h1, h2⟩ := give_extent n sz sz us he
      rw [h1]
      simp [obj, objWith, h2]
    · have hx : extent (.brace [] :: a) = extent a := by simp [extent, reach, Ev.path]
      rw [hx] at he ⊢
      have := items_shrink fits n (extent a) b its (first (.arr n b)) (first (.arr (extent a) b)) a (by
        intro p hp
        unfold first at hp ⊢
        split at hp
        · simp only [Option.some.injEq] at hp
          subst hp
          exact ⟨0, [], rfl, fun hy => by simp [Ty.cnt, hy]⟩
        · cases hp) ha (Nat.le_refl _)
      rcases objWith_other b its tr with ⟨sz, w, us, rfl, rfl⟩ | ho
      · cases tr with
        | false => cases hs
        | true => simp [obj, objWith] at h
      · simp only [obj, ho, this, Option.map_some]

theorem at_grow (n m : Nat) (b : Ty) (hmn : m ≤ n) (u : Path) (c : Ty) (h : Ty.at_ (.arr m b) u = some c) :
    (u = [] ∧ c = .arr m b) ∨ Ty.at_ (.arr n b) u = some c := by
  cases u with
  | nil => left; simpa [Ty.at_, eq_comm] using h
  | cons x u =>
    right
    simp only [Ty.at_, Ty.child] at h ⊢
    by_cases hx : x < m
    · rw [if_pos hx] at h
      rw [if_pos (by omega)]
      exact h
    · rw [if_neg hx] at h; cases h

theorem clean_shrink (n m : Nat) (b : Ty) (hmn : m ≤ n) (evs : List Ev) (h : Clean (.arr n b) evs) :
    Clean (.arr m b) evs := by
  intro x y ev he
  obtain ⟨h1, h2, h3⟩ := h x y ev he
  refine ⟨h1, h2, ?_⟩
  intro a b' e u i j c hp hc hu
  rcases at_grow n m b hmn u c hc with ⟨rfl, rfl⟩ | hc'
  · simp [isUnion] at hu
  · exact h3 a b' e u i j c hp hc' hu

theorem small_shrink (n m : Nat) (b : Ty) (hmn : m ≤ n) (h : Small (.arr n b)) : Small (.arr m b) := by
  intro p k d hp
  rcases at_grow n m b hmn p _ hp with ⟨rfl, hc⟩ | hc
  · have := h [] n b rfl
    cases hc
    omega
  · exact h p k d hc

theorem apart_shrink (n m : Nat) (b : Ty) (x : Nat) (p l : Path) (hn : x < n) (hm : x < m) :
    apart (.arr n b) (x :: p) l = apart (.arr m b) (x :: p) l := by
  cases l with
  | nil => rfl
  | cons y l => simp [apart, Ty.child, hn, hm, isUnion]

theorem holds_shrink (n m : Nat) (b : Ty) (hmn : m ≤ n) (evs : List Ev) (he : extent evs ≤ m) :
    InitSpec.holds (.arr n b) evs = InitSpec.holds (.arr m b) evs := by
  rw [holds_held, holds_held]
  have : ∀ (h : InitSpec.Holds), evs.foldl (held (.arr n b)) h = evs.foldl (held (.arr m b)) h := by
    induction evs with
    | nil => intro h; rfl
    | cons ev evs ih =>
      intro h
      simp only [extent] at he
      rw [List.foldl_cons, List.foldl_cons, ih (by omega)]
      congr 1
      have ha : ∀ (l : Path), apart (.arr n b) ev.path l = apart (.arr m b) ev.path l := by
        intro l
        cases hp : ev.path with
        | nil => simp [apart]
        | cons x p =>
          simp only [reach, hp] at he
          exact apart_shrink n m b x p l (by omega) (by omega)
      cases ev with
      | set p v => funext l; have := ha l; simp only [Ev.path] at this; simp only [held, this]
      | brace p => funext l; have := ha l; simp only [Ev.path] at this; simp only [held, this]
  exact this _

/-- The parser finds the length and does the rest as if it had been given. -/
theorem flex_ok (n : Nat) (b : Ty) (i : Ini) (evs : List Ev) (tl : List Tok) (hsm : Small (.arr n b))
    (h : events fits (.arr n b) i = some evs) (hc : Clean (.arr n b) evs) (he : extent evs < n) :
    ∃ (N : Nat), ∀ (f : Nat), N ≤ f → ∃ (σ : Store),
      init2 fits (f + 1) (.arr (extent evs) b) [] (i.toks ++ tl) (fresh (.arr (extent evs) b)) = .ok (tl, σ) ∧
      flex fits f b (i.toks ++ tl) = .ok (extent evs, tl, σ) := by
  have hev := events_shrink fits n b i evs h he
  have hcl := clean_shrink n (extent evs) b (by omega) evs hc
  have hv := events_valid fits _ i evs hev
  obtain ⟨N, hN⟩ := init2_ok fits _ i evs tl _ (small_shrink n (extent evs) b (by omega) hsm) hev
    (clean_sound _ evs hv hcl)
  have hso := clean_sound _ evs (events_valid fits _ i evs h) hc
  cases hst : strForm b (i.toks ++ tl) with
  | some x =>
    obtain ⟨sz, w, us, r⟩ := x
    have hx : extent evs = us.length := by
      cases i with
      | e s =>
        simp only [events] at h
        split at h
        · rename_i ht
          simp only [Option.some.injEq] at h
          subst h
          match b, s, ht with
          | .leaf (some sz'), .str w' us', ht =>
            rw [(give_extent n sz' w' us' he).1]
            simp only [Ini.toks, List.cons_append, List.nil_append, strForm, Option.some.injEq,
              Prod.mk.injEq] at hst
            rw [hst.2.2.1]
          | .leaf none, s, ht => simp [takes] at ht
          | .arr .., s, ht => simp [takes] at ht
          | .agg .., s, ht => simp [takes] at ht
          | .leaf (some sz), .ex d, ht => simp [takes] at ht
        · cases h
      | br its tr =>
        simp only [events] at h
        rcases arr_obj fits n b its tr evs tl h with ⟨sz', us', rfl, rfl, rfl, rfl⟩ | ⟨hs, a, ha, rfl⟩
        · rw [(give_extent n sz' sz' us' he).1]
          simp [Ini.toks, desigToks, Items.toks, strForm] at hst
          rw [hst.2.2.1]
        · rw [br_toks, hs] at hst; cases hst
    refine ⟨N, ?_⟩
    intro f hf
    have h1 := hN (f + 1) (by omega)
    refine ⟨_, h1, ?_⟩
    simp only [init2, hst] at h1
    simp only [flex, hst]
    rw [← hx, h1]
    rfl
  | none =>
    cases i with
    | e s =>
      exfalso
      simp only [events] at h
      split at h
      · rename_i ht
        match b, s, ht with
        | .leaf (some sz'), .str w' us', ht => simp [Ini.toks, strForm] at hst
        | .leaf none, s, ht => simp [takes] at ht
        | .arr .., s, ht => simp [takes] at ht
        | .agg .., s, ht => simp [takes] at ht
        | .leaf (some sz), .ex d, ht => simp [takes] at ht
      · cases h
    | br its tr =>
      simp only [events] at h
      rcases arr_obj fits n b its tr evs tl h with ⟨sz', us', rfl, rfl, rfl, rfl⟩ | ⟨hs, a, ha, rfl⟩
      · simp [Ini.toks, desigToks, Items.toks, strForm] at hst
      · have hx : extent (.brace [] :: a) = extent a := by simp [extent, reach, Ev.path]
        obtain ⟨M, hM⟩ := count_ok fits n b hsm its a tr tl _ ha hso.2 (by rw [← hx]; exact he)
        refine ⟨max N M, ?_⟩
        intro f hf
        have h1 := hN (f + 1) (by omega)
        refine ⟨_, h1, ?_⟩
        rw [br_toks] at h1 ⊢
        simp only [init2, hs] at h1
        simp only [flex, hs, hM f (by omega), bind, Except.bind, Int.toNat_natCast]
        rw [hx] at h1 ⊢
        rw [h1]
end

end Slimcc.InitL
