import Verif.Lemmas.Compile
import Verif.Model.Stmt
/-! The case ranges of a `switch` and the code that selects one. -/
set_option autoImplicit false
namespace Slimcc
open Slimcc.Spec Slimcc.Spec.CTy Slimcc.Ty Slimcc.X86 Slimcc.Gen

/-! ### Bounds as integers -/

/-- A bound as an integer. -/
def iv (t : ITy) (w : Word) : Int := if t.uns && t.size == 8 then w.toNat else w.toInt

theorem lessEq_iff (t : ITy) (a b : Word) : lessEq t a b = true ↔ iv t a ≤ iv t b := by
  unfold lessEq iv
  split
  · rw [BitVec.ule_iff_toNat_le]; omega
  · exact BitVec.sle_iff_toInt_le

theorem iv_word (t : ITy) (w : Word) : BitVec.ofInt 64 (iv t w) = w := by
  unfold iv
  split
  · rw [BitVec.ofInt_natCast, BitVec.ofNat_toNat, BitVec.setWidth_eq]
  · exact BitVec.ofInt_toInt

theorem iv_inj (t : ITy) (a b : Word) (h : iv t a = iv t b) : a = b := by
  rw [← iv_word t a, h, iv_word]

/-- The values the comparison of the code can tell apart. -/
def Bnd (t : ITy) (v : Int) : Prop :=
  if t.size = 8 then (if t.uns then 0 ≤ v ∧ v < 18446744073709551616 else -9223372036854775808 ≤ v ∧ v < 9223372036854775808)
  else (if t.uns then 0 ≤ v ∧ v < 4294967296 else -2147483648 ≤ v ∧ v < 2147483648)

theorem size_8_4 (t : ITy) : t.size = 8 ∨ t.size ≤ 4 := by
  cases t with
  | mk k u => cases k <;> simp [ITy.size, IKind.size]

theorem toNat_lt64 (w : Word) : w.toNat < 18446744073709551616 := w.isLt
theorem toInt_lt64 (w : Word) : -9223372036854775808 ≤ w.toInt ∧ w.toInt < 9223372036854775808 := by
  have := w.toInt_lt (w := 64); have := BitVec.le_toInt w; simp at *; omega

theorem caseBound_iv (t : ITy) (x : Word) :
    iv t (caseBound t x) = if t.size = 8 then iv t x else if t.uns then (x.toInt % 4294967296) else ((x.toInt + 2147483648) % 4294967296 - 2147483648) := by
  unfold caseBound iv
  rcases size_8_4 t with h | h
  · rw [if_neg (by omega : ¬ t.size ≤ 4), if_pos h]
  · rw [if_pos h, if_neg (by omega : ¬ t.size = 8)]
    have h8 : (t.size == 8) = false := by simp; omega
    have hx := BitVec.toInt_eq_toNat_cond x
    have := toNat_lt64 x
    simp only [h8, Bool.and_false, Bool.false_eq_true, if_false]
    cases hu : t.uns
    · simp only [Bool.not_false, if_true, Bool.false_eq_true, if_false]
      rw [BitVec.toInt_signExtend_of_le (by omega), BitVec.toInt_eq_toNat_bmod, BitVec.toNat_setWidth, Int.bmod_def]
      split at hx <;> omega
    · simp only [Bool.not_true, Bool.false_eq_true, if_false, if_true]
      rw [BitVec.toInt_eq_toNat_of_lt (by rw [BitVec.toNat_setWidth, BitVec.toNat_setWidth]; omega), BitVec.toNat_setWidth, BitVec.toNat_setWidth]
      split at hx <;> omega

theorem bnd_word (t : ITy) (x : Word) : Bnd t (iv t (caseBound t x)) := by
  rw [caseBound_iv]
  unfold Bnd
  have := toNat_lt64 x
  have := toInt_lt64 x
  split
  · rename_i h
    unfold iv
    rw [h]
    cases t.uns <;> simp <;> omega
  · split <;> omega

/-! ### The list of ranges -/

def CaseIn (t : ITy) (cr : CaseRange) (v : Int) : Prop := iv t cr.lo ≤ v ∧ v ≤ iv t cr.hi

instance (t : ITy) (cr : CaseRange) (v : Int) : Decidable (CaseIn t cr v) := inferInstanceAs (Decidable (_ ∧ _))

/-- The value `v` goes to the label `u`. -/
def Cov (t : ITy) (cases : List CaseRange) (u : Nat) (v : Int) : Prop :=
  ∃ (i : Nat) (cr : CaseRange), cases[i]? = some cr ∧ cr.label = some u ∧ CaseIn t cr v

structure CaseInv (t : ITy) (cases : List CaseRange) : Prop where
  ord : ∀ (i : Nat) (cr : CaseRange), cases[i]? = some cr → iv t cr.lo ≤ iv t cr.hi
  bnd : ∀ (i : Nat) (cr : CaseRange), cases[i]? = some cr → Bnd t (iv t cr.lo) ∧ Bnd t (iv t cr.hi)
  func : ∀ u u' v, Cov t cases u v → Cov t cases u' v → u = u'
  /-- An entry without label has been absorbed by another one. -/
  cover : ∀ (i : Nat) (cr : CaseRange) (v : Int), cases[i]? = some cr → CaseIn t cr v → ∃ u, Cov t cases u v

theorem caseInv_nil (t : ITy) : CaseInv t [] :=
  ⟨fun i cr h => by simp at h, fun i cr h => by simp at h, fun u u' v ⟨i, cr, h, _⟩ => by simp at h, fun i cr v h => by simp at h⟩

theorem succ_iv (t : ITy) (a b : Word) (h : (lessEq t a b && a + 1 == b) = true) : iv t a + 1 = iv t b := by
  rw [Bool.and_eq_true, lessEq_iff, beq_iff_eq] at h
  obtain ⟨h1, rfl⟩ := h
  unfold iv at *
  split
  · rename_i hc
    simp only [hc, if_true] at h1
    rw [BitVec.toNat_add] at *
    have := toNat_lt64 a
    simp at *
    omega
  · rename_i hc
    simp only [hc, if_false] at h1
    rw [BitVec.toInt_add] at *
    have := toInt_lt64 a
    rw [Int.bmod_def] at *
    simp at *
    split at * <;> omega

theorem adjacent_spec (t : ITy) (u : Nat) (lo hi : Word) (all : List CaseRange) : ∀ (l : List CaseRange) (i : Nat) (acc : Option Nat × Option Nat),
    (∀ j, all[i + j]? = l[j]?) →
    (∀ j, acc.1 = some j → ∃ cr, all[j]? = some cr ∧ cr.label = some u ∧ iv t cr.hi + 1 = iv t lo) →
    (∀ j, acc.2 = some j → ∃ cr, all[j]? = some cr ∧ cr.label = some u ∧ iv t hi + 1 = iv t cr.lo) →
    (∀ j, (adjacent t u lo hi l i acc).1 = some j → ∃ cr, all[j]? = some cr ∧ cr.label = some u ∧ iv t cr.hi + 1 = iv t lo) ∧
    (∀ j, (adjacent t u lo hi l i acc).2 = some j → ∃ cr, all[j]? = some cr ∧ cr.label = some u ∧ iv t hi + 1 = iv t cr.lo)
  | [], i, acc, _, h1, h2 => ⟨h1, h2⟩
  | cr :: l, i, acc, ha, h1, h2 => by
    have ha' : ∀ j, all[i + 1 + j]? = l[j]? := fun j => by
      have := ha (j + 1)
      rwa [show i + (j + 1) = i + 1 + j by omega, List.getElem?_cons_succ] at this
    have h0 : all[i]? = some cr := by simpa using ha 0
    unfold adjacent
    split
    · exact adjacent_spec t u lo hi all l (i + 1) acc ha' h1 h2
    · rename_i x hx
      split
      · exact ⟨h1, h2⟩
      · rename_i hxu
        have hxu : x = u := Decidable.not_not.1 hxu
        subst hxu
        split
        · rename_i hl
          refine adjacent_spec t x lo hi all l (i + 1) _ ha' (fun j hj => ?_) h2
          injection hj with hj; subst hj
          exact ⟨cr, h0, hx, succ_iv t _ _ hl⟩
        · split
          · rename_i hl
            refine adjacent_spec t x lo hi all l (i + 1) _ ha' h1 (fun j hj => ?_)
            injection hj with hj; subst hj
            exact ⟨cr, h0, hx, succ_iv t _ _ hl⟩
          · exact adjacent_spec t x lo hi all l (i + 1) acc ha' h1 h2

theorem modify_get {α : Type} (l : List α) (i j : Nat) (f : α → α) : (l.modify i f)[j]? = if i = j then (l[j]?).map f else l[j]? := by
  rw [List.getElem?_modify]
  split <;> simp [*]

/-- Entering a range: exactly its values are added. -/
theorem cov_enter (opt : Bool) (t : ITy) (u : Nat) (lo hi : Word) (cases : List CaseRange) (hI : CaseInv t cases) (hlo : iv t lo ≤ iv t hi) (x : Nat) (v : Int) :
    Cov t (enterCase opt t u lo hi cases) x v ↔ Cov t cases x v ∨ (x = u ∧ iv t lo ≤ v ∧ v ≤ iv t hi) := by
  obtain ⟨a1, a2⟩ : (∀ j, (if opt then adjacent t u lo hi cases 0 (none, none) else (none, none)).1 = some j → ∃ cr, cases[j]? = some cr ∧ cr.label = some u ∧ iv t cr.hi + 1 = iv t lo) ∧
      (∀ j, (if opt then adjacent t u lo hi cases 0 (none, none) else (none, none)).2 = some j → ∃ cr, cases[j]? = some cr ∧ cr.label = some u ∧ iv t hi + 1 = iv t cr.lo) := by
    cases opt
    · exact ⟨(fun j h => nomatch h), (fun j h => nomatch h)⟩
    · exact adjacent_spec t u lo hi cases cases 0 (none, none) (fun j => by simp) (fun j h => nomatch h) (fun j h => nomatch h)
  unfold enterCase
  generalize (if opt then adjacent t u lo hi cases 0 (none, none) else (none, none)) = p at a1 a2
  obtain ⟨p1, p2⟩ := p
  cases p1 with
  | none =>
    cases p2 with
    | none =>
      constructor
      · rintro ⟨i, cr, h1, h2, h3⟩
        cases i with
        | zero =>
          simp only [List.getElem?_cons_zero, Option.some.injEq] at h1
          subst h1
          simp only [Option.some.injEq] at h2
          exact Or.inr ⟨h2.symm, h3⟩
        | succ i => exact Or.inl ⟨i, cr, by simpa using h1, h2, h3⟩
      · rintro (⟨i, cr, h1, h2, h3⟩ | ⟨rfl, h3⟩)
        · exact ⟨i + 1, cr, by simpa using h1, h2, h3⟩
        · exact ⟨0, ⟨some x, lo, hi⟩, rfl, rfl, h3⟩
    | some j =>
      obtain ⟨cj, c1, c2, c3⟩ := a2 j rfl
      have oj := hI.ord j cj c1
      constructor
      · rintro ⟨i, cr, h1, h2, h3⟩
        rw [modify_get] at h1
        split at h1
        · rename_i e
          subst e
          rw [c1] at h1
          simp only [Option.map_some, Option.some.injEq] at h1
          subst h1
          rw [c2] at h2
          simp only [Option.some.injEq] at h2
          have h3' : iv t lo ≤ v ∧ v ≤ iv t cj.hi := h3
          by_cases hv : v ≤ iv t hi
          · exact Or.inr ⟨h2.symm, h3'.1, hv⟩
          · exact Or.inl ⟨j, cj, c1, by rw [c2, h2], by omega, h3'.2⟩
        · exact Or.inl ⟨i, cr, h1, h2, h3⟩
      · rintro (⟨i, cr, h1, h2, h3⟩ | ⟨rfl, h3⟩)
        · refine ⟨i, if j = i then { cr with lo := lo } else cr, ?_, ?_, ?_⟩
          · rw [modify_get]; split <;> simp [h1]
          · split <;> exact h2
          · split
            · rename_i e
              subst e
              rw [c1] at h1; injection h1 with h1; subst h1
              exact ⟨by show iv t lo ≤ v; have := h3.1; omega, h3.2⟩
            · exact h3
        · exact ⟨j, { cj with lo := lo }, by rw [modify_get, if_pos rfl, c1]; rfl, c2, h3.1, by show v ≤ iv t cj.hi; omega⟩
  | some i =>
    obtain ⟨ci, b1, b2, b3⟩ := a1 i rfl
    have oi := hI.ord i ci b1
    cases p2 with
    | none =>
      constructor
      · rintro ⟨k, cr, h1, h2, h3⟩
        dsimp only at h1
        rw [modify_get] at h1
        split at h1
        · rename_i e
          subst e
          rw [b1] at h1
          simp only [Option.map_some, Option.some.injEq] at h1
          subst h1
          rw [b2] at h2
          simp only [Option.some.injEq] at h2
          have h3' : iv t ci.lo ≤ v ∧ v ≤ iv t hi := h3
          by_cases hv : iv t lo ≤ v
          · exact Or.inr ⟨h2.symm, hv, h3'.2⟩
          · exact Or.inl ⟨i, ci, b1, by rw [b2, h2], h3'.1, by omega⟩
        · exact Or.inl ⟨k, cr, h1, h2, h3⟩
      · rintro (⟨k, cr, h1, h2, h3⟩ | ⟨rfl, h3⟩)
        · refine ⟨k, if i = k then { cr with hi := hi } else cr, ?_, ?_, ?_⟩
          · dsimp only; rw [modify_get]; split <;> simp [h1]
          · split <;> exact h2
          · split
            · rename_i e
              subst e
              rw [b1] at h1; injection h1 with h1; subst h1
              exact ⟨h3.1, by show v ≤ iv t hi; have := h3.2; omega⟩
            · exact h3
        · exact ⟨i, { ci with hi := hi }, by dsimp only; rw [modify_get, if_pos rfl, b1]; rfl, b2, by show iv t ci.lo ≤ v; omega, h3.2⟩
    | some j =>
      obtain ⟨cj, c1, c2, c3⟩ := a2 j rfl
      have oj := hI.ord j cj c1
      have hij : i ≠ j := by
        rintro rfl
        rw [b1] at c1; injection c1 with c1; subst c1
        omega
      simp only [c1]
      have g : ∀ k, ((cases.modify i fun cr => { cr with hi := cj.hi }).modify j fun cr => { cr with label := none })[k]? =
          if j = k then some { cj with label := none } else if i = k then some { ci with hi := cj.hi } else cases[k]? := by
        intro k
        rw [modify_get, modify_get]
        split
        · rename_i e; subst e
          rw [if_neg hij, c1]; rfl
        · split
          · rename_i e; subst e; rw [b1]; rfl
          · rfl
      constructor
      · rintro ⟨k, cr, h1, h2, h3⟩
        rw [g] at h1
        split at h1
        · injection h1 with h1; subst h1; cases h2
        · split at h1
          · injection h1 with h1; subst h1
            rw [show ({ ci with hi := cj.hi } : CaseRange).label = some u from b2] at h2
            injection h2 with h2
            have h3' : iv t ci.lo ≤ v ∧ v ≤ iv t cj.hi := h3
            by_cases q1 : v ≤ iv t ci.hi
            · exact Or.inl ⟨i, ci, b1, by rw [b2, h2], h3'.1, q1⟩
            · by_cases q2 : iv t cj.lo ≤ v
              · exact Or.inl ⟨j, cj, c1, by rw [c2, h2], q2, h3'.2⟩
              · exact Or.inr ⟨h2.symm, by omega, by omega⟩
          · exact Or.inl ⟨k, cr, h1, h2, h3⟩
      · have hw : ∀ {v : Int}, iv t ci.lo ≤ v → v ≤ iv t cj.hi →
            Cov t ((cases.modify i fun cr => { cr with hi := cj.hi }).modify j fun cr => { cr with label := none }) u v := by
          intro v q1 q2
          exact ⟨i, { ci with hi := cj.hi }, by rw [g, if_neg (Ne.symm hij), if_pos rfl], b2, q1, q2⟩
        rintro (⟨k, cr, h1, h2, h3⟩ | ⟨rfl, h3⟩)
        · by_cases e1 : j = k
          · subst e1
            rw [c1] at h1; injection h1 with h1; subst h1
            rw [c2] at h2; injection h2 with h2; subst h2
            exact hw (by have := h3.1; omega) h3.2
          · by_cases e2 : i = k
            · subst e2
              rw [b1] at h1; injection h1 with h1; subst h1
              rw [b2] at h2; injection h2 with h2; subst h2
              exact hw h3.1 (by have := h3.2; omega)
            · exact ⟨k, cr, by rw [g, if_neg e1, if_neg e2]; exact h1, h2, h3⟩
        · exact hw (by omega) (by omega)

/-- The entries after entering a range. -/
theorem enter_entries (opt : Bool) (t : ITy) (u : Nat) (lo hi : Word) (cases : List CaseRange) (hI : CaseInv t cases) (hlo : iv t lo ≤ iv t hi) (k : Nat) (cr : CaseRange)
    (h : (enterCase opt t u lo hi cases)[k]? = some cr) :
    iv t cr.lo ≤ iv t cr.hi ∧ (cr.lo = lo ∨ ∃ (i : Nat) (c : CaseRange), cases[i]? = some c ∧ cr.lo = c.lo) ∧ (cr.hi = hi ∨ ∃ (i : Nat) (c : CaseRange), cases[i]? = some c ∧ cr.hi = c.hi) ∧
    (cr.label = none → ∃ (i : Nat) (c : CaseRange), cases[i]? = some c ∧ cr.lo = c.lo ∧ cr.hi = c.hi) := by
  obtain ⟨a1, a2⟩ : (∀ j, (if opt then adjacent t u lo hi cases 0 (none, none) else (none, none)).1 = some j → ∃ cr, cases[j]? = some cr ∧ cr.label = some u ∧ iv t cr.hi + 1 = iv t lo) ∧
      (∀ j, (if opt then adjacent t u lo hi cases 0 (none, none) else (none, none)).2 = some j → ∃ cr, cases[j]? = some cr ∧ cr.label = some u ∧ iv t hi + 1 = iv t cr.lo) := by
    cases opt
    · exact ⟨(fun j h => nomatch h), (fun j h => nomatch h)⟩
    · exact adjacent_spec t u lo hi cases cases 0 (none, none) (fun j => by simp) (fun j h => nomatch h) (fun j h => nomatch h)
  have old : ∀ {i : Nat} {c : CaseRange}, cases[i]? = some c → iv t c.lo ≤ iv t c.hi ∧ (c.lo = lo ∨ ∃ (i : Nat) (c' : CaseRange), cases[i]? = some c' ∧ c.lo = c'.lo) ∧ (c.hi = hi ∨ ∃ (i : Nat) (c' : CaseRange), cases[i]? = some c' ∧ c.hi = c'.hi) ∧
      (c.label = none → ∃ (i : Nat) (c' : CaseRange), cases[i]? = some c' ∧ c.lo = c'.lo ∧ c.hi = c'.hi) :=
    fun {i c} hc => ⟨hI.ord i c hc, Or.inr ⟨i, c, hc, rfl⟩, Or.inr ⟨i, c, hc, rfl⟩, fun _ => ⟨i, c, hc, rfl, rfl⟩⟩
  unfold enterCase at h
  generalize (if opt then adjacent t u lo hi cases 0 (none, none) else (none, none)) = p at a1 a2 h
  obtain ⟨p1, p2⟩ := p
  cases p1 with
  | none =>
    cases p2 with
    | none =>
      cases k with
      | zero =>
        simp only [List.getElem?_cons_zero, Option.some.injEq] at h
        subst h
        exact ⟨hlo, Or.inl rfl, Or.inl rfl, fun h => nomatch h⟩
      | succ k => exact old (by simpa using h)
    | some j =>
      obtain ⟨cj, c1, c2, c3⟩ := a2 j rfl
      have oj := hI.ord j cj c1
      dsimp only at h
      rw [modify_get] at h
      split at h
      · rename_i e; subst e
        rw [c1] at h; simp only [Option.map_some, Option.some.injEq] at h; subst h
        exact ⟨by show iv t lo ≤ iv t cj.hi; omega, Or.inl rfl, Or.inr ⟨j, cj, c1, rfl⟩, fun h => by rw [c2] at h; cases h⟩
      · exact old h
  | some i =>
    obtain ⟨ci, b1, b2, b3⟩ := a1 i rfl
    have oi := hI.ord i ci b1
    cases p2 with
    | none =>
      dsimp only at h
      rw [modify_get] at h
      split at h
      · rename_i e; subst e
        rw [b1] at h; simp only [Option.map_some, Option.some.injEq] at h; subst h
        exact ⟨by show iv t ci.lo ≤ iv t hi; omega, Or.inr ⟨i, ci, b1, rfl⟩, Or.inl rfl, fun h => by rw [b2] at h; cases h⟩
      · exact old h
    | some j =>
      obtain ⟨cj, c1, c2, c3⟩ := a2 j rfl
      have oj := hI.ord j cj c1
      have hij : i ≠ j := by
        rintro rfl
        rw [b1] at c1; injection c1 with c1; subst c1
        omega
      simp only [c1] at h
      rw [modify_get, modify_get] at h
      split at h
      · rename_i e; subst e
        rw [if_neg hij, c1] at h; simp only [Option.map_some, Option.some.injEq] at h; subst h
        exact ⟨oj, Or.inr ⟨j, cj, c1, rfl⟩, Or.inr ⟨j, cj, c1, rfl⟩, fun _ => ⟨j, cj, c1, rfl, rfl⟩⟩
      · split at h
        · rename_i e; subst e
          rw [b1] at h; simp only [Option.map_some, Option.some.injEq] at h; subst h
          exact ⟨by show iv t ci.lo ≤ iv t cj.hi; omega, Or.inr ⟨i, ci, b1, rfl⟩, Or.inr ⟨j, cj, c1, rfl⟩, fun h => by rw [b2] at h; cases h⟩
        · exact old h

/-- The bounds of a source range as the parser sees them. -/
def cb (t : ITy) (x : Int) : Int := iv t (caseBound t (BitVec.ofInt 64 x))

theorem clash_iff (t : ITy) (lo hi : Word) (cr : CaseRange) (h : iv t lo ≤ iv t hi) (h' : iv t cr.lo ≤ iv t cr.hi) :
    clash t lo hi cr = true ↔ ∃ v, CaseIn t cr v ∧ iv t lo ≤ v ∧ v ≤ iv t hi := by
  unfold clash
  simp only [Bool.or_eq_true, Bool.and_eq_true, lessEq_iff]
  constructor
  · rintro (⟨a, b⟩ | ⟨a, b⟩)
    · exact ⟨_, ⟨a, b⟩, Int.le_refl _, h⟩
    · exact ⟨_, ⟨Int.le_refl _, h'⟩, a, b⟩
  · rintro ⟨v, ⟨a, b⟩, c, d⟩
    omega

/-- What entering a `case` label does. -/
theorem addCase_ok (opt : Bool) (t : ITy) (u : Nat) (lo hi : Int) (cases cases' : List CaseRange) (hI : CaseInv t cases) (h : addCase opt t u lo hi cases = some cases') :
    cb t lo ≤ cb t hi ∧ CaseInv t cases' ∧ (∀ x v, Cov t cases' x v ↔ Cov t cases x v ∨ (x = u ∧ cb t lo ≤ v ∧ v ≤ cb t hi)) ∧
    (∀ x v, Cov t cases x v → ¬ (cb t lo ≤ v ∧ v ≤ cb t hi)) := by
  unfold addCase at h
  dsimp only at h
  split at h
  · cases h
  · rename_i hne
    split at h
    · cases h
    · rename_i hcl
      injection h with h
      subst h
      have hlo : cb t lo ≤ cb t hi := by
        unfold cb
        by_cases e : caseBound t (BitVec.ofInt 64 hi) = caseBound t (BitVec.ofInt 64 lo)
        · rw [e]; exact Int.le_refl _
        · simp only [ne_eq, e, not_false_eq_true, decide_true, Bool.true_and, lessEq_iff] at hne
          omega
      have hc := fun x v => cov_enter opt t u (caseBound t (BitVec.ofInt 64 lo)) (caseBound t (BitVec.ofInt 64 hi)) cases hI hlo x v
      have hno : ∀ x v, Cov t cases x v → ¬ (cb t lo ≤ v ∧ v ≤ cb t hi) := by
        rintro x v ⟨i, cr, h1, h2, h3⟩ hv
        refine hcl (List.any_eq_true.2 ⟨cr, List.mem_of_getElem? h1, ?_⟩)
        exact (clash_iff t _ _ cr hlo (hI.ord i cr h1)).2 ⟨v, h3, hv⟩
      refine ⟨hlo, ⟨fun i cr hi' => ?_, fun i cr hi' => ?_, fun x y v hx hy => ?_, fun i cr v hi' hv => ?_⟩, hc, hno⟩
      · exact (enter_entries opt t u _ _ cases hI hlo i cr hi').1
      · obtain ⟨_, e1, e2, _⟩ := enter_entries opt t u _ _ cases hI hlo i cr hi'
        constructor
        · rcases e1 with e | ⟨j, c, hj, e⟩
          · rw [e]; exact bnd_word t _
          · rw [e]; exact (hI.bnd j c hj).1
        · rcases e2 with e | ⟨j, c, hj, e⟩
          · rw [e]; exact bnd_word t _
          · rw [e]; exact (hI.bnd j c hj).2
      · rw [hc] at hx hy
        rcases hx with hx | hx <;> rcases hy with hy | hy
        · exact hI.func _ _ _ hx hy
        · exact absurd hy.2 (hno _ _ hx)
        · exact absurd hx.2 (hno _ _ hy)
        · rw [hx.1, hy.1]
      · obtain ⟨_, _, _, e3⟩ := enter_entries opt t u _ _ cases hI hlo i cr hi'
        cases hl : cr.label with
        | some x => exact ⟨x, i, cr, hi', hl, hv⟩
        | none =>
          obtain ⟨j, c, hj, e1, e2⟩ := e3 hl
          obtain ⟨x, hx⟩ := hI.cover j c v hj (by unfold CaseIn at *; rw [← e1, ← e2]; exact hv)
          exact ⟨x, (hc x v).2 (Or.inl hx)⟩

/-- When a `case` label is accepted. -/
theorem addCase_some (opt : Bool) (t : ITy) (u : Nat) (lo hi : Int) (cases : List CaseRange) (hI : CaseInv t cases) (hlo : cb t lo ≤ cb t hi)
    (hd : ∀ x v, Cov t cases x v → ¬ (cb t lo ≤ v ∧ v ≤ cb t hi)) : ∃ cases', addCase opt t u lo hi cases = some cases' := by
  unfold addCase
  dsimp only
  rw [if_neg, if_neg]
  · exact ⟨_, rfl⟩
  · intro h
    obtain ⟨cr, h1, h2⟩ := List.any_eq_true.1 h
    obtain ⟨i, h1⟩ := List.getElem?_of_mem h1
    obtain ⟨v, h3, h4⟩ := (clash_iff t _ _ cr hlo (hI.ord i cr h1)).1 h2
    obtain ⟨x, hx⟩ := hI.cover i cr v h1 h3
    exact hd x v hx h4
  · intro h
    simp only [ne_eq, Bool.and_eq_true, decide_eq_true_eq, lessEq_iff] at h
    refine h.1 (iv_inj t _ _ ?_)
    have : cb t lo = iv t (caseBound t (BitVec.ofInt 64 lo)) := rfl
    have : cb t hi = iv t (caseBound t (BitVec.ofInt 64 hi)) := rfl
    omega

end Slimcc
