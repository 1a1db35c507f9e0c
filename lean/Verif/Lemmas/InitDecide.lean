import Verif.Lemmas.InitCreate

/-!
The specification's conditions, decided.
-/

set_option autoImplicit false

namespace Slimcc.InitL

open InitList InitSpec

mutual
def small : Ty → Bool
  | .leaf _ => true
  | .arr n b => n ≤ 2 ^ 31 && small b
  | .agg _ ms => smallMems ms
def smallMems : Mems → Bool
  | .nil => true
  | .cons _ t rest => small t && smallMems rest
end

theorem smallMems_get (ms : Mems) (i : Nat) (c : Ty) (h : smallMems ms = true) (hc : ms.get i = some c) :
    small c = true := by
  induction i generalizing ms with
  | zero =>
    cases ms with
    | nil => cases hc
    | cons nm t rest =>
      simp only [smallMems, Bool.and_eq_true] at h
      simp only [Mems.get, Option.some.injEq] at hc
      subst hc; exact h.1
  | succ i ih =>
    cases ms with
    | nil => cases hc
    | cons nm t rest =>
      simp only [smallMems, Bool.and_eq_true] at h
      exact ih rest h.2 hc

theorem small_child (t c : Ty) (i : Nat) (h : small t = true) (hc : t.child i = some c) : small c = true := by
  cases t with
  | leaf k => cases hc
  | arr n b =>
    simp only [small, Bool.and_eq_true] at h
    simp only [Ty.child] at hc
    split at hc
    · cases hc; exact h.2
    · cases hc
  | agg u ms => exact smallMems_get ms i c (by simpa [small] using h) hc

theorem small_ok (t : Ty) (h : small t = true) : Small t := by
  intro p
  induction p generalizing t with
  | nil =>
    intro n b hp
    simp only [Ty.at_, Option.some.injEq] at hp
    subst hp
    simp only [small, Bool.and_eq_true, decide_eq_true_eq] at h
    exact h.1
  | cons i p ih =>
    intro n b hp
    simp only [Ty.at_] at hp
    cases hc : t.child i with
    | none => rw [hc] at hp; cases hp
    | some c => rw [hc] at hp; exact ih c (small_child t c i h hc) n b hp

def apart : Ty → Path → Path → Bool
  | t, i :: p, j :: q =>
    if i = j then
      match t.child i with
      | some c => apart c p q
      | none => false
    else isUnion t
  | _, _, _ => false

theorem apart_iff (t : Ty) (p q : Path) : Apart t p q ↔ apart t p q = true := by
  induction p generalizing t q with
  | nil =>
    constructor
    · rintro ⟨u, i, j, p', q', c, h, _⟩
      cases u <;> cases h
    · intro h; simp [apart] at h
  | cons x p ih =>
    cases q with
    | nil =>
      constructor
      · rintro ⟨u, i, j, p', q', c, _, h, _⟩
        cases u <;> cases h
      · intro h; simp [apart] at h
    | cons y q =>
      simp only [apart]
      by_cases hxy : x = y
      · subst hxy
        rw [if_pos rfl]
        constructor
        · rintro ⟨u, i, j, p', q', c, h1, h2, h3, h4, h5⟩
          cases u with
          | nil =>
            simp only [List.nil_append, List.cons.injEq] at h1 h2
            exact absurd (h1.1.symm.trans h2.1) h3
          | cons z u =>
            simp only [List.cons_append, List.cons.injEq] at h1 h2
            obtain ⟨rfl, rfl⟩ := h1
            simp only [Ty.at_] at h4
            cases hc : t.child x with
            | none => rw [hc] at h4; cases h4
            | some d =>
              rw [hc] at h4
              exact (ih d q).1 ⟨u, i, j, p', q', c, rfl, h2.2, h3, h4, h5⟩
        · intro h
          cases hc : t.child x with
          | none => rw [hc] at h; cases h
          | some d =>
            rw [hc] at h
            obtain ⟨u, i, j, p', q', c, h1, h2, h3, h4, h5⟩ := (ih d q).2 h
            exact ⟨x :: u, i, j, p', q', c, by rw [h1]; rfl, by rw [h2]; rfl, h3, by simp [Ty.at_, hc, h4], h5⟩
      · rw [if_neg hxy]
        constructor
        · rintro ⟨u, i, j, p', q', c, h1, h2, h3, h4, h5⟩
          cases u with
          | nil => cases h4; exact h5
          | cons z u =>
            simp only [List.cons_append, List.cons.injEq] at h1 h2
            exact absurd (h1.1.trans h2.1.symm) hxy
        · intro h
          exact ⟨[], x, y, p, q, t, rfl, rfl, hxy, rfl, h⟩

/-- What `after` does, computed. -/
def held (t : Ty) (h : InitSpec.Holds) : Ev → InitSpec.Holds
  | .set p v => fun l =>
    if p.isPrefixOf l then some (v, l.drop p.length) else if apart t p l then none else h l
  | .brace p => fun l =>
    if p.isPrefixOf l then none else if apart t p l then none else h l

theorem holds_held (t : Ty) (evs : List Ev) : InitSpec.holds t evs = evs.foldl (held t) (fun _ => none) := by
  have : after t = held t := by
    funext h ev l
    cases ev with
    | set p v => simp only [after, held, List.isPrefixOf_iff_prefix, apart_iff]
    | brace p => simp only [after, held, List.isPrefixOf_iff_prefix, apart_iff]
  rw [InitSpec.holds, this]

/-- Where the first path leads into another member of a union than the second. -/
def fork : Ty → Path → Path → Option Path
  | t, i :: p, j :: q =>
    if i = j then
      match t.child i with
      | some c => (fork c p q).map (i :: ·)
      | none => none
    else if isUnion t then some [i] else none
  | _, _, _ => none

theorem fork_of (t c : Ty) (u : Path) (i j : Nat) (p q : Path) (h : t.at_ u = some c) (hu : isUnion c = true)
    (hij : i ≠ j) : fork t (u ++ i :: p) (u ++ j :: q) = some (u ++ [i]) := by
  induction u generalizing t with
  | nil =>
    simp only [Ty.at_, Option.some.injEq] at h
    subst h
    simp [fork, hij, hu]
  | cons x u ih =>
    simp only [Ty.at_] at h
    cases hc : t.child x with
    | none => rw [hc] at h; cases h
    | some d =>
      rw [hc] at h
      simp [fork, hc, ih d h]

/-- `Once.above` and `Once.below`. -/
def onceOf (ev : Ev) : Ev → Bool
  | .brace _ => true
  | .set q _ =>
    match ev with
    | .set p _ => !q.isPrefixOf p || p == q
    | .brace p => !q.isPrefixOf p && !p.isPrefixOf q

/-- `Once.member`; `a` is what came before. -/
def members (t : Ty) (ev : Ev) : List Ev → List Ev → Bool
  | _, [] => true
  | a, e :: b =>
    (match fork t ev.path e.path with
     | none => true
     | some w => a.all (fun x => match x with | .set q _ => !w.isPrefixOf q | .brace _ => true)) &&
    members t ev (a ++ [e]) b

def clean (t : Ty) : List Ev → List Ev → Bool
  | _, [] => true
  | past, ev :: evs => past.all (onceOf ev) && members t ev [] past && clean t (past ++ [ev]) evs

theorem members_ok (t : Ty) (ev : Ev) (b0 a0 : List Ev) (h : members t ev a0 b0 = true) (a b : List Ev) (e : Ev)
    (hb : b0 = a ++ e :: b) (w : Path) (hw : fork t ev.path e.path = some w) (q : Path) (v : Val)
    (hm : Ev.set q v ∈ a0 ++ a) : ¬ w <+: q := by
  induction b0 generalizing a0 a with
  | nil => cases a <;> cases hb
  | cons x b0 ih =>
    simp only [members, Bool.and_eq_true] at h
    cases a with
    | nil =>
      simp only [List.nil_append, List.cons.injEq] at hb
      obtain ⟨rfl, rfl⟩ := hb
      rw [hw] at h
      simp only [List.append_nil] at hm
      have := List.all_eq_true.1 h.1 _ hm
      simp only [Bool.not_eq_true'] at this
      rwa [← Bool.not_eq_true, List.isPrefixOf_iff_prefix] at this
    | cons y a =>
      simp only [List.cons_append, List.cons.injEq] at hb
      obtain ⟨rfl, hb⟩ := hb
      exact ih (a0 ++ [x]) h.2 a hb (by simpa using hm)

theorem once_ok (t : Ty) (past : List Ev) (ev : Ev) (h1 : past.all (onceOf ev) = true)
    (h2 : members t ev [] past = true) : Once t past ev := by
  rw [List.all_eq_true] at h1
  refine ⟨?_, ?_, ?_⟩
  · intro q v hm hq
    have := h1 _ hm
    cases ev with
    | set p w =>
      simp only [onceOf, Bool.or_eq_true, Bool.not_eq_true', beq_iff_eq] at this
      rcases this with h | h
      · rw [← Bool.not_eq_true, List.isPrefixOf_iff_prefix] at h; exact absurd hq h
      · subst h; exact ⟨w, rfl⟩
    | brace p =>
      simp only [onceOf, Bool.and_eq_true, Bool.not_eq_true'] at this
      have h := this.1
      rw [← Bool.not_eq_true, List.isPrefixOf_iff_prefix] at h; exact absurd hq h
  · intro p q v hev hm hp
    have := h1 _ hm
    subst hev
    simp only [onceOf, Bool.and_eq_true, Bool.not_eq_true'] at this
    have h := this.2
    rw [← Bool.not_eq_true, List.isPrefixOf_iff_prefix] at h; exact h hp
  · intro a b e u i j c hpast hc hu hi hj hij q v hm
    obtain ⟨r, hr⟩ := hi
    obtain ⟨s, hs⟩ := hj
    refine members_ok t ev past [] h2 a b e hpast (u ++ [i]) ?_ q v (by simpa using hm)
    rw [← hr, ← hs]
    simp only [List.append_assoc, List.cons_append, List.nil_append]
    exact fork_of t c u i j r s hc hu hij

theorem clean_from (t : Ty) (evs past : List Ev) (h : clean t past evs = true) (a b : List Ev) (ev : Ev)
    (he : evs = a ++ ev :: b) : Once t (past ++ a) ev := by
  induction evs generalizing past a with
  | nil => cases a <;> cases he
  | cons x evs ih =>
    simp only [clean, Bool.and_eq_true] at h
    cases a with
    | nil =>
      simp only [List.nil_append, List.cons.injEq] at he
      obtain ⟨rfl, rfl⟩ := he
      simpa using once_ok t past x h.1.1 h.1.2
    | cons y a =>
      simp only [List.cons_append, List.cons.injEq] at he
      obtain ⟨rfl, he⟩ := he
      simpa using ih (past ++ [x]) h.2 a he

theorem clean_ok (t : Ty) (evs : List Ev) (h : clean t [] evs = true) : Clean t evs :=
  fun a b ev he => clean_from t evs [] h a b ev he

end Slimcc.InitL
