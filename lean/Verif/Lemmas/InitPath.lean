import Verif.Spec.InitList
/-!
Paths, and the effect of an event on the store of `Initializer`s.
-/
set_option autoImplicit false
namespace Slimcc.InitL
open Slimcc.InitList Slimcc.InitSpec

theorem at_append (t : Ty) (p q : Path) : t.at_ (p ++ q) = (t.at_ p).bind (fun c => c.at_ q) := by
  induction p generalizing t with
  | nil => simp [Ty.at_]
  | cons i p ih =>
    simp only [List.cons_append, Ty.at_]
    cases t.child i with
    | none => rfl
    | some c => exact ih c

theorem at_snoc (t c : Ty) (p : Path) (i : Nat) (h : t.at_ p = some c) :
    t.at_ (p ++ [i]) = c.child i := by
  rw [at_append, h]
  simp only [Option.bind_some, Ty.at_]
  cases c.child i <;> rfl

theorem mems_get_iff (ms : Mems) (i : Nat) : (∃ c, ms.get i = some c) ↔ i < ms.len := by
  induction i generalizing ms with
  | zero => cases ms <;> simp [Mems.get, Mems.len]
  | succ i ih =>
    cases ms with
    | nil => simp [Mems.get, Mems.len]
    | cons n t rest => simp only [Mems.get, Mems.len]; rw [ih]; omega

theorem child_iff (t : Ty) (i : Nat) : (∃ c, t.child i = some c) ↔ i < t.cnt := by
  cases t with
  | leaf k => simp [Ty.child, Ty.cnt]
  | arr n b => simp only [Ty.child, Ty.cnt]; split <;> simp [*]
  | agg u ms => exact mems_get_iff ms i

theorem child_none (t : Ty) (i : Nat) (h : t.child i = none) : t.cnt ≤ i := by
  rcases Nat.lt_or_ge i t.cnt with hl | hl
  · obtain ⟨c, hc⟩ := (child_iff t i).2 hl
    rw [h] at hc; cases hc
  · exact hl

theorem next_append (t c : Ty) (p q : Path) (h : t.at_ p = some c) (hq : q ≠ []) :
    next t (p ++ q) = match next c q with
      | some r => some (p ++ r)
      | none => next t p := by
  induction p generalizing t with
  | nil =>
    simp only [Ty.at_, Option.some.injEq] at h
    subst h
    simp only [List.nil_append, next]
    cases next t q <;> rfl
  | cons i p ih =>
    simp only [Ty.at_] at h
    cases hc : t.child i with
    | none => rw [hc] at h; cases h
    | some d =>
      rw [hc] at h
      have := ih d h
      simp only [List.cons_append, next, hc, this]
      cases next c q with
      | some r => rfl
      | none => rfl

theorem next_snoc (t c : Ty) (p : Path) (i : Nat) (h : t.at_ p = some c) (hi : i < c.cnt) :
    next t (p ++ [i]) = if isUnion c = false ∧ i + 1 < c.cnt then some (p ++ [i + 1])
      else next t p := by
  rw [next_append t c p [i] h (by simp)]
  obtain ⟨d, hd⟩ := (child_iff c i).2 hi
  simp only [next, hd]
  by_cases hx : isUnion c = false ∧ i + 1 < c.cnt
  · rw [if_pos hx, if_pos hx]
  · rw [if_neg hx, if_neg hx]

/-! ### Effects -/

/-- Unions on the way to `p` are initialized through the member on the way. -/
def touch (t : Ty) (p : Path) (σ : Store) : Store := fun u =>
  if u.isPrefixOf p ∧ u ≠ p then
    match t.at_ u with
    | some c => if isUnion c then ⟨(σ u).kind, .mem (p.getD u.length 0)⟩ else σ u
    | none => σ u
  else σ u

/-- What `braced_initializer` finds in the node of a union. -/
def opened (c : Ty) (x : Cell) : Cell :=
  match c with
  | .agg true ms => ⟨x.kind, if ms.len = 0 then .null else .mem 0⟩
  | _ => x

def app (t : Ty) (σ : Store) : Ev → Store
  | .set p v => (touch t p σ).set p ⟨.expr, .expr v⟩
  | .brace p => match t.at_ p with
    | some c => (touch t p σ).set p (opened c (σ p))
    | none => touch t p σ

/-- Every event finds lists on its way. -/
def Sound (t : Ty) : List Ev → Store → Prop
  | [], _ => True
  | ev :: evs, σ => (∀ (u : Path), u <+: ev.path → u ≠ ev.path → (σ u).kind = .list) ∧
      Sound t evs (app t σ ev)

theorem sound_append (t : Ty) (a b : List Ev) (σ : Store) :
    Sound t (a ++ b) σ ↔ Sound t a σ ∧ Sound t b (a.foldl (app t) σ) := by
  induction a generalizing σ with
  | nil => simp [Sound]
  | cons e a ih => simp only [List.cons_append, Sound, List.foldl_cons, ih, and_assoc]

/-- Unions on the way to `p` have been entered on that way. -/
def Opened (t : Ty) (σ : Store) (p : Path) : Prop :=
  ∀ (u : Path) (i : Nat) (r : Path) (c : Ty), p = u ++ i :: r → t.at_ u = some c →
    isUnion c = true → (σ u).pay = .mem i

theorem opened_nil (t : Ty) (σ : Store) : Opened t σ [] := by
  intro u i r c h
  cases u <;> cases h

theorem opened_up (t : Ty) (σ : Store) (p q : Path) (h : Opened t σ (p ++ q)) : Opened t σ p := by
  intro u i r c he ht hu
  exact h u i (r ++ q) c (by rw [he]; simp) ht hu

theorem prefix_split (u p : Path) (h : u <+: p) (hne : u ≠ p) :
    ∃ (i : Nat) (r : Path), p = u ++ i :: r := by
  obtain ⟨r, hr⟩ := h
  cases r with
  | nil => exact absurd (by simpa using hr) hne
  | cons i r => exact ⟨i, r, hr.symm⟩

theorem touch_at (t : Ty) (σ : Store) (u r : Path) (i : Nat) (c : Ty) (ht : t.at_ u = some c)
    (hu : isUnion c = true) : touch t (u ++ i :: r) σ u = ⟨(σ u).kind, .mem i⟩ := by
  unfold touch
  rw [if_pos ⟨by simp, by simp⟩, ht]
  simp [hu]

theorem touch_other (t : Ty) (σ : Store) (p u : Path)
    (h : ∀ (i : Nat) (r : Path) (c : Ty), p = u ++ i :: r → t.at_ u = some c → isUnion c = false) :
    touch t p σ u = σ u := by
  unfold touch
  split
  · rename_i hp
    obtain ⟨i, r, hr⟩ := prefix_split u p (by simpa using hp.1) hp.2
    cases ht : t.at_ u with
    | none => rfl
    | some c => simp [h i r c hr ht]
  · rfl

theorem touch_kind (t : Ty) (σ : Store) (p u : Path) : (touch t p σ u).kind = (σ u).kind := by
  unfold touch
  split
  · split
    · split <;> rfl
    · rfl
  · rfl

theorem opened_kind (c : Ty) (x : Cell) : (opened c x).kind = x.kind := by
  unfold opened; split <;> rfl

/-- The way to `p` has been entered, so that entering it again changes nothing. -/
theorem touch_opened (t : Ty) (σ : Store) (p : Path) (h : Opened t σ p) : touch t p σ = σ := by
  funext u
  unfold touch
  split
  · rename_i hp
    obtain ⟨i, r, hr⟩ := prefix_split u p (by simpa using hp.1) hp.2
    cases ht : t.at_ u with
    | none => rfl
    | some c =>
      by_cases hu : isUnion c = true
      · have := h u i r c hr ht hu
        subst hr
        simp only [hu, if_true]
        cases hs : σ u with
        | mk k y =>
          rw [hs] at this
          simp only at this
          subst this
          simp
      · simp [hu]
  · rfl

theorem app_kind (t : Ty) (σ : Store) (ev : Ev) (u : Path) (h : u ≠ ev.path) :
    (app t σ ev u).kind = (σ u).kind := by
  cases ev with
  | set p v =>
    simp only [app, Store.set, Ev.path] at h ⊢
    rw [if_neg h, touch_kind]
  | brace p =>
    simp only [app, Ev.path] at h ⊢
    cases t.at_ p with
    | some c => simp only [Store.set]; rw [if_neg h, touch_kind]
    | none => exact touch_kind t σ p u

theorem app_brace_kind (t : Ty) (σ : Store) (p u : Path) :
    (app t σ (.brace p) u).kind = (σ u).kind := by
  by_cases h : u = p
  · subst h
    simp only [app]
    cases t.at_ u with
    | some c => simp only [Store.set, if_true, opened_kind]
    | none => exact touch_kind t σ u u
  · exact app_kind t σ (.brace p) u h

/-- Two stores with the same kinds. -/
def SameKind (σ ρ : Store) : Prop := ∀ (u : Path), (σ u).kind = (ρ u).kind

theorem app_sameKind (t : Ty) (σ ρ : Store) (ev : Ev) (h : SameKind σ ρ) :
    SameKind (app t σ ev) (app t ρ ev) := by
  intro u
  cases ev with
  | brace p => rw [app_brace_kind, app_brace_kind]; exact h u
  | set p v =>
    by_cases hu : u = p
    · subst hu; simp [app, Store.set]
    · rw [app_kind t σ (.set p v) u hu, app_kind t ρ (.set p v) u hu]; exact h u

theorem sound_sameKind (t : Ty) (evs : List Ev) (σ ρ : Store) (h : SameKind σ ρ)
    (hs : Sound t evs σ) : Sound t evs ρ := by
  induction evs generalizing σ ρ with
  | nil => trivial
  | cons ev evs ih =>
    exact ⟨fun u hu hne => by rw [← h u]; exact hs.1 u hu hne,
      ih _ _ (app_sameKind t σ ρ ev h) hs.2⟩

theorem opened_app (t : Ty) (σ : Store) (p : Path) (ev : Ev) (h : Opened t σ p)
    (hp : p <+: ev.path) : Opened t (app t σ ev) p := by
  intro u i r c he ht hu
  obtain ⟨s, hs⟩ := hp
  have hne : u ≠ ev.path := by
    intro hx
    have h1 := congrArg List.length hs
    have h2 := congrArg List.length he
    have h3 := congrArg List.length hx
    simp at h1 h2 h3
    omega
  have hpath : ev.path = u ++ i :: (r ++ s) := by rw [← hs, he]; simp
  have key : touch t ev.path σ u = ⟨(σ u).kind, .mem i⟩ := by
    rw [hpath]; exact touch_at t σ u (r ++ s) i c ht hu
  cases ev with
  | set q v =>
    simp only [app, Store.set, Ev.path] at hne key ⊢
    rw [if_neg hne, key]
  | brace q =>
    simp only [app, Ev.path] at hne key ⊢
    cases t.at_ q with
    | some d => simp only [Store.set]; rw [if_neg hne, key]
    | none => simp only [key]

theorem opened_fold (t : Ty) (σ : Store) (p : Path) (evs : List Ev) (h : Opened t σ p)
    (hp : ∀ (ev : Ev), ev ∈ evs → p <+: ev.path) : Opened t (evs.foldl (app t) σ) p := by
  induction evs generalizing σ with
  | nil => exact h
  | cons ev evs ih =>
    exact ih _ (opened_app t σ p ev h (hp ev (by simp))) (fun e he => hp e (by simp [he]))

theorem opened_snoc (t c : Ty) (σ : Store) (p : Path) (i : Nat) (h : Opened t σ p)
    (ht : t.at_ p = some c) (hc : isUnion c = true → (σ p).pay = .mem i) :
    Opened t σ (p ++ [i]) := by
  intro u j r d he hd hu
  rcases List.eq_nil_or_concat r with hr | ⟨r', k, hr⟩
  · subst hr
    have := List.append_inj' he rfl
    obtain ⟨h1, h2⟩ := this
    subst h1
    have : i = j := by simpa using h2
    subst this
    rw [ht] at hd
    cases hd
    exact hc hu
  · subst hr
    have he' : p ++ [i] = (u ++ j :: r') ++ [k] := by rw [he]; simp
    have := List.append_inj' he' rfl
    exact h u j r' d this.1 hd hu

/-- The first event on a way enters it. -/
theorem app_absorb (t : Ty) (σ : Store) (ev : Ev) (u r : Path) (i : Nat) (c : Ty)
    (ht : t.at_ u = some c) (hu : isUnion c = true) (hp : ev.path = u ++ i :: r) :
    app t (σ.pay u (.mem i)) ev = app t σ ev := by
  have key : touch t ev.path (σ.pay u (.mem i)) = touch t ev.path σ := by
    funext w
    by_cases hw : w = u
    · subst hw
      rw [hp, touch_at t _ w r i c ht hu, touch_at t _ w r i c ht hu]
      simp [Store.pay, Store.set]
    · unfold touch
      have : (σ.pay u (.mem i)) w = σ w := by simp [Store.pay, Store.set, hw]
      rw [this]
  have hne : ev.path ≠ u := by rw [hp]; simp
  cases ev with
  | set p v => simp only [Ev.path] at key; simp only [app, key]
  | brace p =>
    simp only [Ev.path] at key hne
    have : (σ.pay u (.mem i)) p = σ p := by simp [Store.pay, Store.set, hne]
    simp only [app, key, this]

theorem sameKind_pay (σ : Store) (u : Path) (y : Pay) : SameKind σ (σ.pay u y) := by
  intro w
  by_cases hw : w = u
  · subst hw; simp [Store.pay, Store.set]
  · simp [Store.pay, Store.set, hw]

theorem kind_self (σ : Store) (u : Path) (k : Kind) (h : (σ u).kind = k) : σ.kind u k = σ := by
  funext w
  by_cases hw : w = u
  · subst hw; simp [Store.kind, Store.set, ← h]
  · simp [Store.kind, Store.set, hw]

end Slimcc.InitL
