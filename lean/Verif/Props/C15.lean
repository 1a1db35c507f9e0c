import Verif.Spec.Compat
/-!
C15: type compatibility.
-/
set_option autoImplicit false
namespace Slimcc.Spec
open Slimcc.Ty

mutual
theorem Compat.refl : ∀ t : CT, Compat t t
  | .int k u => .int k u
  | .flo k => .flo k
  | .nominal k i => .nominal k i
  | .ptr q b => .ptr q q b b rfl (Compat.refl b)
  | .func r p v o => .func r r p p v o o (Compat.refl r) (CompatParams.refl p)
  | .array q b n => .array q q b b n n rfl (Compat.refl b) (fun _ _ => rfl)
  | .vla q b => .vla q q b b rfl (Compat.refl b)
  | .origin q o => .wrapL q o _ (.wrapR q o _ (Compat.refl o))
theorem CompatParams.refl : ∀ p : CTs, CompatParams p p
  | .nil => .nil
  | .cons t p => .cons t t p p (Compat.refl t) (CompatParams.refl p)
end

mutual
theorem Compat.symm : ∀ {t1 t2 : CT}, Compat t1 t2 → Compat t2 t1
  | _, _, .wrapL q o t h => .wrapR q o t h.symm
  | _, _, .wrapR q o t h => .wrapL q o t h.symm
  | _, _, .int k u => .int k u
  | _, _, .flo k => .flo k
  | _, _, .nominal k i => .nominal k i
  | _, _, .ptr q q' a b e h => .ptr q' q b a e.symm h.symm
  | _, _, .array q q' a b n m e h hn => .array q' q b a m n e.symm h.symm (fun h1 h2 => (hn h2 h1).symm)
  | _, _, .vla q q' a b e h => .vla q' q b a e.symm h.symm
  | _, _, .vlaArray q q' a b n e h => .arrayVla q' q b a n e.symm h.symm
  | _, _, .arrayVla q q' a b n e h => .vlaArray q' q b a n e.symm h.symm
  | _, _, .func r r' p p' v o o' h hp => .func r' r p' p v o' o h.symm hp.symm
theorem CompatParams.symm : ∀ {p1 p2 : CTs}, CompatParams p1 p2 → CompatParams p2 p1
  | _, _, .nil => .nil
  | _, _, .cons t t' p p' h hp => .cons t' t p' p h.symm hp.symm
end

theorem Compat.unwrapL : ∀ (t : CT) {q : Quals} {o : CT}, Compat (.origin q o) t → Compat o t
  | .origin q' o', q, o, h => by
    cases h with
    | wrapL _ _ _ h => exact h
    | wrapR _ _ _ h => exact .wrapR q' o' o (Compat.unwrapL o' h)
  | .int _ _, _, _, h => by cases h; assumption
  | .flo _, _, _, h => by cases h; assumption
  | .nominal _ _, _, _, h => by cases h; assumption
  | .ptr _ _, _, _, h => by cases h; assumption
  | .func _ _ _ _, _, _, h => by cases h; assumption
  | .array _ _ _, _, _, h => by cases h; assumption
  | .vla _ _, _, _, h => by cases h; assumption

theorem Compat.unwrapR (t : CT) {q : Quals} {o : CT} (h : Compat t (.origin q o)) : Compat t o :=
  (Compat.unwrapL t h.symm).symm

end Slimcc.Spec

namespace Slimcc.Props
open Slimcc Slimcc.Ty Slimcc.Spec

/-- Pointer equality: the same object is the same type, and an object compared by identity is the
same object as itself. -/
structure Identity (same : CT → CT → Bool) : Prop where
  eq : ∀ a b, same a b = true → a = b
  refl : ∀ kind id, same (.nominal kind id) (.nominal kind id) = true

theorem quals_eq_iff (a b : Quals) : a = b ↔ a.atomic = b.atomic ∧ a.const = b.const ∧ a.volatile = b.volatile ∧ a.restrict = b.restrict := by
  cases a; cases b; simp

/-- `is_compatible2` adds equality of the qualifiers. -/
theorem isCompatible2_iff (same : CT → CT → Bool) (t1 t2 : CT) :
    isCompatible2 same t1 t2 = true ↔ t1.quals = t2.quals ∧ isCompatible same t1 t2 = true := by
  rw [isCompatible2.eq_def, quals_eq_iff]
  cases h1 : t1.quals with | mk a1 c1 v1 r1 =>
  cases h2 : t2.quals with | mk a2 c2 v2 r2 =>
  cases a1 <;> cases a2 <;> cases c1 <;> cases c2 <;> cases v1 <;> cases v2 <;> cases r1 <;> cases r2 <;> simp

theorem compat_iff (same : CT → CT → Bool) (hs : Identity same) : ∀ (n : Nat),
    (∀ t1 t2 : CT, sizeOf t1 + sizeOf t2 < n → (isCompatible same t1 t2 = true ↔ Compat t1 t2)) ∧
    (∀ p1 p2 : CTs, sizeOf p1 + sizeOf p2 < n → (isCompatibleParams same p1 p2 = true ↔ CompatParams p1 p2)) := by
  intro n
  induction n with
  | zero => exact ⟨fun _ _ h => by omega, fun _ _ h => by omega⟩
  | succ n ih =>
    obtain ⟨ih1, ih2⟩ := ih
    refine ⟨?_, ?_⟩
    · intro t1 t2 hsz
      by_cases hsame : same t1 t2 = true
      · have := hs.eq _ _ hsame
        subst this
        rw [isCompatible.eq_def, if_pos hsame]
        exact ⟨fun _ => Compat.refl _, fun _ => rfl⟩
      · rw [isCompatible.eq_def, if_neg hsame]
        cases t1 with
        | origin q o =>
          simp at hsz
          have e := ih1 o t2 (by omega)
          simp only []
          rw [e]
          exact ⟨.wrapL q o t2, Compat.unwrapL t2⟩
        | int k u =>
          cases t2 with
          | origin q o =>
            simp at hsz
            have e := ih1 (.int k u) o (by simp; omega)
            simp only []
            rw [e]
            exact ⟨.wrapR q o _, Compat.unwrapR _⟩
          | int k' u' =>
            simp only [Bool.and_eq_true, beq_iff_eq]
            constructor
            · rintro ⟨rfl, rfl⟩; exact .int _ _
            · intro h; cases h; simp
          | _ => simp only [Bool.false_eq_true, false_iff]; intro h; cases h
        | flo k =>
          cases t2 with
          | origin q o =>
            simp at hsz
            have e := ih1 (.flo k) o (by simp; omega)
            simp only []
            rw [e]
            exact ⟨.wrapR q o _, Compat.unwrapR _⟩
          | flo k' =>
            simp only [beq_iff_eq]
            constructor
            · rintro rfl; exact .flo _
            · intro h; cases h; rfl
          | _ => simp only [Bool.false_eq_true, false_iff]; intro h; cases h
        | nominal k i =>
          cases t2 with
          | origin q o =>
            simp at hsz
            have e := ih1 (.nominal k i) o (by simp; omega)
            simp only []
            rw [e]
            exact ⟨.wrapR q o _, Compat.unwrapR _⟩
          | nominal k' i' =>
            simp only [Bool.false_eq_true, false_iff]
            intro h; cases h
            exact hsame (hs.refl k i)
          | _ => simp only [Bool.false_eq_true, false_iff]; intro h; cases h
        | ptr q b =>
          cases t2 with
          | origin q' o =>
            simp at hsz
            have e := ih1 (.ptr q b) o (by simp; omega)
            simp only []
            rw [e]
            exact ⟨.wrapR q' o _, Compat.unwrapR _⟩
          | ptr q' b' =>
            simp at hsz
            simp only []
            rw [isCompatible2_iff, ih1 b b' (by omega)]
            exact ⟨fun h => .ptr q q' b b' h.1 h.2, fun h => by cases h; exact ⟨by assumption, by assumption⟩⟩
          | _ => simp only [Bool.false_eq_true, false_iff]; intro h; cases h
        | func r p v o =>
          cases t2 with
          | origin q' o' =>
            simp at hsz
            have e := ih1 (.func r p v o) o' (by simp; omega)
            simp only []
            rw [e]
            exact ⟨.wrapR q' o' _, Compat.unwrapR _⟩
          | func r' p' v' o' =>
            simp at hsz
            have e1 := ih1 r r' (by omega)
            have e2 := ih2 p p' (by omega)
            simp only []
            constructor
            · intro h
              split at h
              · cases h
              · rename_i h1
                split at h
                · cases h
                · rename_i h2
                  have hv : v = v' := by simpa using h2
                  subst hv
                  exact .func r r' p p' v o o' (e1.1 (by simpa using h1)) (e2.1 h)
            · intro h
              cases h with
              | func _ _ _ _ _ _ _ h1 h2 => simp [e1.2 h1, e2.2 h2]
          | _ => simp only [Bool.false_eq_true, false_iff]; intro h; cases h
        | array q b m =>
          cases t2 with
          | origin q' o =>
            simp at hsz
            have e := ih1 (.array q b m) o (by simp; omega)
            simp only []
            rw [e]
            exact ⟨.wrapR q' o _, Compat.unwrapR _⟩
          | array q' b' m' =>
            simp at hsz
            have e := ih1 b b' (by omega)
            have e2 := isCompatible2_iff same b b'
            simp only []
            constructor
            · intro h
              split at h
              · cases h
              · rename_i h1
                have h1' := e2.1 (by simpa using h1)
                refine .array q q' b b' m m' h1'.1 (e.1 h1'.2) ?_
                intro a c
                simp at h; omega
            · intro h
              cases h with
              | array _ _ _ _ _ _ he hc hn =>
                rw [e2.2 ⟨he, e.2 hc⟩]
                simp; omega
          | vla q' b' =>
            simp at hsz
            simp only []
            rw [isCompatible2_iff, ih1 b b' (by omega)]
            exact ⟨fun h => .arrayVla q q' b b' m h.1 h.2, fun h => by cases h; exact ⟨by assumption, by assumption⟩⟩
          | _ => simp only [Bool.false_eq_true, false_iff]; intro h; cases h
        | vla q b =>
          cases t2 with
          | origin q' o =>
            simp at hsz
            have e := ih1 (.vla q b) o (by simp; omega)
            simp only []
            rw [e]
            exact ⟨.wrapR q' o _, Compat.unwrapR _⟩
          | array q' b' m' =>
            simp at hsz
            simp only []
            rw [isCompatible2_iff, ih1 b b' (by omega)]
            exact ⟨fun h => .vlaArray q q' b b' m' h.1 h.2, fun h => by cases h; exact ⟨by assumption, by assumption⟩⟩
          | vla q' b' =>
            simp at hsz
            simp only []
            rw [isCompatible2_iff, ih1 b b' (by omega)]
            exact ⟨fun h => .vla q q' b b' h.1 h.2, fun h => by cases h; exact ⟨by assumption, by assumption⟩⟩
          | _ => simp only [Bool.false_eq_true, false_iff]; intro h; cases h
    · intro p1 p2 hsz
      rw [isCompatibleParams.eq_def]
      cases p1 with
      | nil =>
        cases p2 with
        | nil => simp; exact .nil
        | cons t p => simp; intro h; cases h
      | cons t p =>
        cases p2 with
        | nil => simp; intro h; cases h
        | cons t' p' =>
          simp at hsz
          have e1 := ih1 t t' (by omega)
          have e2 := ih2 p p' (by omega)
          simp only []
          constructor
          · intro h
            split at h
            · cases h
            · rename_i h1
              exact .cons t t' p p' (e1.1 (by simpa using h1)) (e2.1 h)
          · intro h
            cases h with
            | cons _ _ _ _ h1 h2 => simp [e1.2 h1, e2.2 h2]

/-- Compatibility as the compiler decides it is the relation of the C standard. -/
theorem C15_compatible_iff (same : CT → CT → Bool) (hs : Identity same) (t1 t2 : CT) :
    isCompatible same t1 t2 = true ↔ Compat t1 t2 :=
  (compat_iff same hs (sizeOf t1 + sizeOf t2 + 1)).1 t1 t2 (by omega)

/-- Every type is compatible with itself. -/
theorem C15_reflexive (same : CT → CT → Bool) (hs : Identity same) (t : CT) : isCompatible same t t = true :=
  (C15_compatible_iff same hs t t).2 (Compat.refl t)

/-- Compatibility does not depend on the order of the types (nor does the version that compares
qualifiers). -/
theorem C15_symmetric (same : CT → CT → Bool) (hs : Identity same) (t1 t2 : CT) :
    isCompatible same t1 t2 = isCompatible same t2 t1 ∧ isCompatible2 same t1 t2 = isCompatible2 same t2 t1 := by
  have h : isCompatible same t1 t2 = true ↔ isCompatible same t2 t1 = true := by
    rw [C15_compatible_iff same hs, C15_compatible_iff same hs]
    exact ⟨Compat.symm, Compat.symm⟩
  refine ⟨by rw [Bool.eq_iff_iff]; exact h, ?_⟩
  rw [Bool.eq_iff_iff, isCompatible2_iff, isCompatible2_iff, h]
  exact ⟨fun ⟨a, b⟩ => ⟨a.symm, b⟩, fun ⟨a, b⟩ => ⟨a.symm, b⟩⟩

/-- Qualifying either type at top level changes nothing. -/
theorem C15_top_qualifiers_ignored (same : CT → CT → Bool) (hs : Identity same) (q q' : Quals) (t1 t2 : CT) :
    isCompatible same (.origin q t1) (.origin q' t2) = isCompatible same t1 t2 := by
  rw [Bool.eq_iff_iff, C15_compatible_iff same hs, C15_compatible_iff same hs]
  exact ⟨fun h => Compat.unwrapR _ (Compat.unwrapL _ h), fun h => .wrapL _ _ _ (.wrapR _ _ _ h)⟩

/-- Identity of objects exists: structural equality is one. -/
noncomputable def sameStruct (a b : CT) : Bool := @decide (a = b) (Classical.propDecidable _)
example : Identity sameStruct :=
  ⟨fun a b h => by simpa [sameStruct] using h, fun k i => by simp [sameStruct]⟩

/-! ### `_Generic` -/

/-- Associations other than `default`, whose type is compatible with (and as qualified as) the
controlling type. -/
def Matches (t1 : CT) {α : Type} (a : Option CT × α) : Prop :=
  ∃ t2, a.1 = some t2 ∧ t1.quals = t2.quals ∧ Compat t1 t2

theorem generic_none {α : Type} (same : CT → CT → Bool) (hs : Identity same) (t1 : CT) :
    ∀ (as : List (Option CT × α)) (ret : Option α), (∀ a ∈ as, ¬ Matches t1 a) →
      genericLoop same t1 as ret = match ret with
        | some e => some e
        | none => (as.find? (fun a => a.1.isNone)).map (·.2)
  | [], ret, _ => by cases ret <;> rfl
  | (none, e) :: as, ret, h => by
    rw [genericLoop, generic_none same hs t1 as _ (fun a ha => h a (by simp [ha]))]
    cases ret <;> simp
  | (some t2, e) :: as, ret, h => by
    have : isCompatible2 same t1 t2 = false := by
      rw [← Bool.not_eq_true, isCompatible2_iff, C15_compatible_iff same hs]
      exact fun hm => h (some t2, e) (by simp) ⟨t2, rfl, hm⟩
    rw [genericLoop, this, generic_none same hs t1 as _ (fun a ha => h a (by simp [ha]))]
    cases ret <;> simp

/-- If exactly one association matches, its expression is selected, wherever it and `default`
stand in the list. -/
theorem C15_generic_unique {α : Type} (same : CT → CT → Bool) (hs : Identity same) (t1 : CT)
    (pre post : List (Option CT × α)) (a : Option CT × α) (ha : Matches t1 a)
    (hpre : ∀ b ∈ pre, ¬ Matches t1 b) (hpost : ∀ b ∈ post, ¬ Matches t1 b) :
    genericSelect same t1 (pre ++ a :: post) = some a.2 := by
  obtain ⟨t2, e, hq, hc⟩ := ha
  obtain ⟨o, x⟩ := a
  simp only at e
  subst e
  have hmid : ∀ ret, genericLoop same t1 ((some t2, x) :: post) ret = some x := by
    intro ret
    have : isCompatible2 same t1 t2 = true := (isCompatible2_iff same t1 t2).2 ⟨hq, (C15_compatible_iff same hs t1 t2).2 hc⟩
    rw [genericLoop, this, generic_none same hs t1 post _ hpost]
    rfl
  have happ : ∀ (l : List (Option CT × α)) (ret : Option α), ∃ r,
      genericLoop same t1 (l ++ (some t2, x) :: post) ret = genericLoop same t1 ((some t2, x) :: post) r := by
    intro l
    induction l with
    | nil => intro ret; exact ⟨ret, rfl⟩
    | cons b l ih =>
      intro ret
      obtain ⟨ot, y⟩ := b
      cases ot with
      | none => exact ih _
      | some t => exact ih _
  obtain ⟨r, h⟩ := happ pre none
  unfold genericSelect
  rw [h, hmid]

/-- If none matches, the first `default` is selected, and without one the program is rejected. -/
theorem C15_generic_default {α : Type} (same : CT → CT → Bool) (hs : Identity same) (t1 : CT)
    (as : List (Option CT × α)) (h : ∀ b ∈ as, ¬ Matches t1 b) :
    genericSelect same t1 as = (as.find? (fun a => a.1.isNone)).map (·.2) :=
  generic_none same hs t1 as none h

/-- Non-vacuity: `_Generic(1u, int: 1, default: 2, unsigned: 3)`. -/
example (same : CT → CT → Bool) (hs : Identity same) :
    genericSelect same (.int .int true) [(some (.int .int false), 1), (none, 2), (some (.int .int true), 3)] = some 3 := by
  refine C15_generic_unique same hs (.int .int true) [(some (.int .int false), 1), (none, 2)] [] (some (.int .int true), 3)
    ⟨_, rfl, rfl, .int _ _⟩ ?_ (by simp)
  intro b hb
  simp at hb
  rcases hb with rfl | rfl
  · rintro ⟨t2, e, _, h⟩; cases e; cases h
  · rintro ⟨t2, e, _, h⟩; cases e

/-- Deviation: before C23, `int f()` declares a function without prototype, whose type is
compatible with `int f(int)`; the compiler says it is not. -/
theorem C15_no_prototype_incompatible (same : CT → CT → Bool) (hs : Identity same) :
    isCompatible same (.func (.int .int false) .nil false true)
      (.func (.int .int false) (.cons (.int .int false) .nil) false false) = false := by
  rw [← Bool.not_eq_true, C15_compatible_iff same hs]
  intro h
  cases h with
  | func _ _ _ _ _ _ _ _ hp => cases hp

end Slimcc.Props
