import Verif.Lemmas.GlobalsInv
/-! A check that shows of a given unit that it is valid. -/
set_option autoImplicit false
namespace Slimcc.Globals
open Slimcc.Spec.Link

def declB (a : List Event) (x : Nat) : Bool :=
  !(objDecls a x).isEmpty || !(fnDecls a x).isEmpty ||
    a.any fun | .fn d => (match d.body with | some b => b.linked.contains x | none => false) | _ => false

theorem declB_of {a : List Event} {x : Nat} (h : Declared a x) : declB a x = true := by
  unfold declB
  rcases h with h | h | ⟨d, b, h1, h2, h3⟩
  · have : (objDecls a x).isEmpty = false := by simpa using h
    rw [this]; rfl
  · have : (fnDecls a x).isEmpty = false := by simpa using h
    rw [this]; simp
  · have : (a.any fun | .fn d => (match d.body with | some b => b.linked.contains x | none => false) | _ => false) = true := by
      rw [List.any_eq_true]
      refine ⟨_, h1, ?_⟩
      dsimp only
      rw [h2]
      simpa using h3
    rw [this]; simp

def compatB : STy → STy → Bool
  | .unsized e a, .arr e' a' _ => decide (e = e') && decide (a = a')
  | .arr e a _, .unsized e' a' => decide (e = e') && decide (a = a')
  | t, t' => decide (t = t')

theorem compatB_iff {t t' : STy} (h : compatB t t' = true) : t.compat t' := by
  cases t <;> cases t' <;> simp_all [compatB, STy.compat]

def realB (d : FnDecl) : Bool := d.body.isSome && !(d.gnu && d.inline && d.extern)

def nameOk (u : List Event) (x : Nat) : Bool :=
  ((objDecls u x).isEmpty || (fnDecls u x).isEmpty) &&
  ((objDecls u x).all fun d => (objDecls u x).all fun d' => compatB d.type d'.type) &&
  decide (((objDecls u x).filter fun d => d.init.isSome).length ≤ 1) &&
  ((objDecls u x).all fun d => !(d.static && d.extern)) &&
  ((objDecls u x).all fun d => (d.type.bytes u).isSome) &&
  decide (((fnDecls u x).filter realB).length ≤ 1)

def placeOk (u : List Event) (n : Nat) : Bool :=
  match u[n]? with
  | some (.obj d) =>
    (!d.static || !declB (u.take n) d.name || (objDecls (u.take n) d.name).any (·.static)) &&
    (d.static || !(objDecls (u.take n) d.name).any (·.static) || d.extern)
  | some (.fn d) =>
    (!d.body.isSome || !(d.gnu && d.inline && d.extern) || (fnDecls (u.take n) d.name).all fun d' => !realB d') &&
    (!d.static || !declB (u.take n) d.name || (fnDecls (u.take n) d.name).any (·.static))
  | some (.tag t _ _) => (tagOf (u.take n) t).isNone
  | none => true

def validB (u : List Event) (names : List Nat) : Bool :=
  (u.all fun | .obj d => names.contains d.name | .fn d => names.contains d.name | _ => true) &&
  names.all (nameOk u) && (List.range u.length).all (placeOk u)

theorem valid_of_check {u : List Event} (names : List Nat) (h : validB u names = true) : Valid u := by
  unfold validB at h
  rw [Bool.and_eq_true, Bool.and_eq_true, List.all_eq_true, List.all_eq_true, List.all_eq_true] at h
  obtain ⟨⟨h1, h2⟩, h3⟩ := h
  have hob : ∀ x, x ∉ names → objDecls u x = [] := by
    intro x hx
    cases ho : objDecls u x with
    | nil => rfl
    | cons d l =>
      exfalso
      have := objDecls_mem.1 (show d ∈ objDecls u x by rw [ho]; simp)
      have h4 := h1 _ this.1
      dsimp only at h4
      rw [this.2] at h4
      exact hx (by simpa using h4)
  have hfn : ∀ x, x ∉ names → fnDecls u x = [] := by
    intro x hx
    cases ho : fnDecls u x with
    | nil => rfl
    | cons d l =>
      exfalso
      have : d ∈ fnDecls u x := by rw [ho]; simp
      unfold fnDecls at this
      rw [List.mem_filterMap] at this
      obtain ⟨e, he, hx2⟩ := this
      cases e with
      | obj d' => cases hx2
      | tag _ _ _ => cases hx2
      | fn d' =>
        dsimp only at hx2
        split at hx2
        · rename_i hn
          have h4 := h1 _ he
          dsimp only at h4
          rw [hn] at h4
          exact hx (by simpa using h4)
        · cases hx2
  have name : ∀ x, nameOk u x = true := by
    intro x
    by_cases hx : x ∈ names
    · exact h2 x hx
    · unfold nameOk
      rw [hob x hx, hfn x hx]; rfl
  have name' : ∀ x, _ := fun x => by
    have := name x
    unfold nameOk at this
    simp only [Bool.and_eq_true] at this
    exact this
  have place : ∀ a e b, u = a ++ e :: b → placeOk u a.length = true ∧ u[a.length]? = some e ∧ u.take a.length = a := by
    intro a e b hu
    refine ⟨h3 _ ?_, ?_, ?_⟩
    · rw [List.mem_range, hu]; simp
    · rw [hu]; simp
    · rw [hu]; simp
  refine ⟨?_, ?_, ?_, ?_, ?_, ?_, ?_, ?_, ?_, ?_, ?_⟩
  · intro x
    have := (name' x).1.1.1.1.1
    simpa using this
  · intro x d hd d' hd'
    have := (name' x).1.1.1.1.2
    rw [List.all_eq_true] at this
    have := this d hd
    rw [List.all_eq_true] at this
    exact compatB_iff (this d' hd')
  · intro x
    exact of_decide_eq_true (name' x).1.1.1.2
  · intro x d hd hc
    have := (name' x).1.1.2
    rw [List.all_eq_true] at this
    have := this d hd
    rw [hc.1, hc.2] at this; cases this
  · intro a d b hu hst hdec
    obtain ⟨p1, p2, p3⟩ := place a _ b hu
    unfold placeOk at p1
    rw [p2, p3] at p1
    simp only [hst, declB_of hdec, Bool.not_true, Bool.false_or, Bool.and_eq_true, List.any_eq_true] at p1
    exact p1.1
  · intro a d b hu hst hint
    obtain ⟨p1, p2, p3⟩ := place a _ b hu
    unfold placeOk at p1
    rw [p2, p3] at p1
    have : (objDecls a d.name).any (·.static) = true := by
      rw [List.any_eq_true]; exact hint
    simp only [hst, this, Bool.not_true, Bool.false_or, Bool.and_eq_true] at p1
    exact p1.2
  · intro x _ t ht
    obtain ⟨⟨d, hd, e⟩, _⟩ := ht
    have := (name' x).1.2
    rw [List.all_eq_true] at this
    rw [← e]; exact this d hd
  · intro a t n m b hu
    obtain ⟨p1, p2, p3⟩ := place a _ b hu
    unfold placeOk at p1
    rw [p2, p3] at p1
    simpa using p1
  · intro x
    exact of_decide_eq_true (name' x).2
  · intro a d b hu hb hg d' hd' hb'
    obtain ⟨p1, p2, p3⟩ := place a _ b hu
    unfold placeOk at p1
    rw [p2, p3] at p1
    simp only [hb, hg, Bool.not_true, Bool.false_or, Bool.and_eq_true, List.all_eq_true] at p1
    have := p1.1 d' hd'
    unfold realB at this
    rw [hb'] at this
    simpa using this
  · intro a d b hu hst hdec
    obtain ⟨p1, p2, p3⟩ := place a _ b hu
    unfold placeOk at p1
    rw [p2, p3] at p1
    have hq := p1
    simp only [hst, declB_of hdec, Bool.not_true, Bool.false_or, Bool.and_eq_true, List.any_eq_true] at hq
    exact hq.2

end Slimcc.Globals
