import Verif.Lemmas.AddrTotal
import Verif.Model.AddrGen
import Verif.Spec.Access
/-! The trees of designators without conversions between integers and pointers, as the code generator looks at
them. -/
set_option autoImplicit false
namespace Slimcc.AGen
open Slimcc Slimcc.Spec Slimcc.Ty Slimcc.X86 Slimcc.Gen Slimcc.Addr

mutual
theorem noSumL : ∀ l : LV, l.NoConv → l.NoSum
  | .var _, _ => trivial
  | .deref p, h => noSumP p h
  | .member l _, h => noSumL l h
theorem noSumP : ∀ p : PE, p.NoConv → p.NoSum
  | .addr l, h => noSumL l h
  | .decay l, h => noSumL l h
  | .value l, h => noSumL l h
  | .cast _ p, h => noSumP p h
  | .ofInt _ _, h => h.elim
  | .add p i, h => ⟨noSumP p h.1, noSumI i h.2⟩
  | .radd i p, h => ⟨noSumI i h.1, noSumP p h.2⟩
  | .sub p i, h => ⟨noSumP p h.1, noSumI i h.2⟩
theorem noSumI : ∀ i : IE, i.NoConv → i.NoSum
  | .expr _, _ => trivial
  | .obj l, h => noSumL l h
  | .ofPtr _ _, h => h.elim
  | .plus _ _, h => h.elim
end

section
variable (C : Cfg) (P : ODecls)

/-- The tree is not a number, nor an address that is one. -/
def Known (n : ANode) : Prop :=
  (∀ (c c' : Ctx) (v : BitVec 64), ev C P n .agg c = some (v, c') → c'.var ≠ none) ∧ ∀ c : Ctx, ev C P n .con c = none

variable {C P}

theorem Known.cast {n : ANode} (h : Known C P n) (t : OTy) : Known C P (castA C P n (.ptr t)) := by
  have e : ∀ k c, ev C P (castA C P n (.ptr t)) k c = ev C P n k c := by
    intro k c
    rcases castA_ptr_form C P n t with e | e <;> rw [e]
    exact ev_cast_ptr C P t n k c
  exact ⟨fun c c' v hv => h.1 c c' v (by rw [← e]; exact hv), fun c => by rw [e]; exact h.2 c⟩

theorem Known.ptrOf {n : ANode} (h : Known C P n) : Known C P (ptrOf C P n) := by
  unfold Addr.ptrOf
  split
  · exact h.cast _
  · exact h

theorem Known.add {n : ANode} (h : Known C P n) (t : OTy) (m : ANode) (size : Nat) : Known C P (.add t n (scale C P m size)) := by
  refine ⟨fun c c' v hv => ?_, fun c => ?_⟩
  · rw [ev] at hv
    split at hv
    · rename_i x c1 h1
      rw [Option.map_eq_some_iff] at hv
      obtain ⟨r, h2, h3⟩ := hv
      injection h3 with _ h3
      have := scale_ctx C P m size .agg c1 r.2 r.1 h2
      rw [← h3, this]
      exact h.1 c c1 x h1
    · cases hv
  · rw [ev, h.2]

theorem Known.radd {n : ANode} (h : Known C P n) (t : OTy) (m : ANode) (size : Nat) : Known C P (.add t (scale C P m size) n) := by
  refine ⟨fun c c' v hv => ?_, fun c => ?_⟩
  · rw [ev] at hv
    split at hv
    · rename_i x c1 h1
      rw [Option.map_eq_some_iff] at hv
      obtain ⟨r, h2, h3⟩ := hv
      injection h3 with _ h3
      rw [← h3]
      exact h.1 c1 r.2 r.1 h2
    · cases hv
  · rw [ev]
    split
    · rw [h.2]; rfl
    · rfl

theorem Known.sub {n : ANode} (h : Known C P n) (t : OTy) (m : ANode) : Known C P (.sub t n m) := by
  refine ⟨fun c c' v hv => ?_, fun c => ?_⟩
  · rw [ev] at hv
    split at hv
    · rename_i x c1 h1
      rw [Option.map_eq_some_iff] at hv
      obtain ⟨r, h2, h3⟩ := hv
      injection h3 with _ h3
      rw [← h3]
      exact h.1 c c1 x h1
    · cases hv
  · rw [ev, h.2]

theorem buildL_ne_addr (hC : C.Ok) (l : LV) (t : OTy) (ht : l.ty P = some t) (t' : OTy) (m : ANode) : buildL C P l ≠ .addr t' m := by
  intro e
  rcases buildL_place C P hC l t ht with ⟨x, h⟩ | ⟨p, h, _⟩ | ⟨o, l', h⟩ <;> rw [h] at e <;> cases e

/-- The tree of a member. -/
theorem buildL_member (hC : C.Ok) (l : LV) (i : Nat) (t : OTy) (h : (LV.member l i).ty P = some t) :
    ∃ s o, l.ty P = some (.struct s) ∧ (P.structs s).members[i]? = some (o, t) ∧ buildL C P (.member l i) = .member t o (buildL C P l) := by
  unfold LV.ty at h
  split at h
  · rename_i s hs
    have e := buildL_ty C P hC l _ hs
    cases hm : (P.structs s).members[i]? with
    | none => rw [hm] at h; cases h
    | some m =>
      rw [hm] at h
      simp only [Option.map_some, Option.some.injEq] at h
      refine ⟨s, m.1, hs, by rw [hm, ← h], ?_⟩
      show memberOf P (buildL C P l) i = _
      unfold memberOf
      rw [e]
      simp only [hm, h]
  · cases h

theorem buildL_deref (hC : C.Ok) (p : PE) (t : OTy) (h : (LV.deref p).ty P = some t) :
    buildL C P (.deref p) = .deref t (buildP C P p) := by
  show ANode.deref (baseOf (buildP C P p).ty) _ = _
  rw [pointee_base C P hC p t (by simpa [LV.ty] using h)]

theorem pointee_decay {l : LV} {t : OTy} (h : (PE.decay l).pointee P = some t) : ∃ n, l.ty P = some (.arr t n) := by
  unfold PE.pointee at h
  split at h
  · rename_i t' n hs; injection h with h; exact ⟨n, by rw [hs, h]⟩
  · cases h

theorem pointee_value {l : LV} {t : OTy} (h : (PE.value l).pointee P = some t) : l.ty P = some (.ptr t) := by
  unfold PE.pointee at h
  split at h
  · rename_i t' hs; injection h with h; rw [hs, h]
  · cases h

theorem pointee_cast {t u : OTy} {p : PE} (h : (PE.cast u p).pointee P = some t) : u = t ∧ ∃ v, p.pointee P = some v := by
  unfold PE.pointee at h
  cases hp : p.pointee P with
  | none => rw [hp] at h; cases h
  | some v => rw [hp] at h; injection h with h; exact ⟨h, v, rfl⟩

theorem pointee_add {p : PE} {i : IE} {t : OTy} (h : (PE.add p i).pointee P = some t) : p.pointee P = some t ∧ ∃ u, i.ty P = some u := by
  unfold PE.pointee at h
  cases hi : i.ty P with
  | none => rw [hi] at h; cases h
  | some u => rw [hi] at h; exact ⟨h, u, rfl⟩
theorem pointee_radd {p : PE} {i : IE} {t : OTy} (h : (PE.radd i p).pointee P = some t) : p.pointee P = some t ∧ ∃ u, i.ty P = some u := by
  unfold PE.pointee at h
  cases hi : i.ty P with
  | none => rw [hi] at h; cases h
  | some u => rw [hi] at h; exact ⟨h, u, rfl⟩
theorem pointee_sub {p : PE} {i : IE} {t : OTy} (h : (PE.sub p i).pointee P = some t) : p.pointee P = some t ∧ ∃ u, i.ty P = some u := by
  unfold PE.pointee at h
  cases hi : i.ty P with
  | none => rw [hi] at h; cases h
  | some u => rw [hi] at h; exact ⟨h, u, rfl⟩

mutual
theorem knownL (hC : C.Ok) : ∀ (l : LV) (t : OTy), l.ty P = some t → l.NoConv →
    Known C P (buildL C P l) ∧ ∀ (t' : OTy) (q : ANode), buildL C P l = .deref t' q → Known C P q
  | .var x, t, h, _ => by
    refine ⟨⟨fun c c' v hv => ?_, fun c => ?_⟩, fun _ _ e => by cases e⟩
    · rw [show buildL C P (.var x) = .var (P.objs x) x from rfl, ev.eq_def] at hv
      dsimp only at hv
      split at hv
      · injection hv with hv; injection hv with _ hv; rw [← hv]; simp
      · injection hv with hv; injection hv with _ hv; rw [← hv]; simp
      · cases hv
    · rw [show buildL C P (.var x) = .var (P.objs x) x from rfl, ev]
  | .deref p, t, h, hn => by
    have i := knownP hC p t (by simpa [LV.ty] using h) hn
    rw [buildL_deref hC p t h]
    refine ⟨?_, fun t' q e => by injection e with _ e; rw [← e]; exact i.1⟩
    by_cases ha : ∃ t' m, buildP C P p = .addr t' m
    · obtain ⟨t', m, e⟩ := ha
      have k := i.2 t' m e
      rw [e]
      exact ⟨fun c c' v hv => k.1 c c' v (by rwa [ev_deref_addr] at hv), fun c => by rw [ev_deref_addr]; exact k.2 c⟩
    · have hne : ∀ (t' : OTy) (l : ANode), buildP C P p ≠ .addr t' l := fun t' l e => ha ⟨t', l, e⟩
      refine ⟨fun c c' v hv => ?_, fun c => ev_deref_con C P t _ c hne⟩
      rw [ev_deref_agg C P t _ c hne] at hv
      split at hv
      · exact i.1.1 _ c' v hv
      · cases hv
  | .member l i, t, h, hn => by
    obtain ⟨s, o, hs, _, e⟩ := buildL_member hC l i t h
    have k := knownL hC l _ hs hn
    rw [e]
    refine ⟨⟨fun c c' v hv => ?_, fun c => ev_member_con C P _ _ _ c⟩, fun _ _ e => by cases e⟩
    rw [ev_member_agg, Option.map_eq_some_iff] at hv
    obtain ⟨r, h1, h2⟩ := hv
    injection h2 with _ h2
    rw [← h2]
    exact k.1.1 _ r.2 r.1 h1
theorem knownP (hC : C.Ok) : ∀ (p : PE) (t : OTy), p.pointee P = some t → p.NoConv →
    Known C P (buildP C P p) ∧ ∀ (t' : OTy) (m : ANode), buildP C P p = .addr t' m → Known C P m
  | .addr l, t, h, hn => by
    have k := knownL hC l t (by simpa [PE.pointee] using h) hn
    refine ⟨⟨fun c c' v hv => ?_, fun c => ?_⟩, fun t' m e => by injection e with _ e; rw [← e]; exact k.1⟩
    · rcases ev_addr_cases C P _ _ _ _ _ hv with ⟨v1, c1, _, h1, h2, _⟩ | ⟨t', q, h1, h2⟩ | ⟨_, _, h1⟩ | ⟨h1, _⟩
      · exact absurd h2 (k.1.1 _ _ _ h1)
      · exact (k.2 t' q h1).1 _ _ _ h2
      · exact k.1.1 _ _ _ h1
      · cases h1
    · cases hv : ev C P (buildP C P (.addr l)) .con c with
      | none => rfl
      | some r =>
        exfalso
        rcases ev_addr_cases C P _ _ _ _ _ hv with ⟨v1, c1, _, h1, h2, _⟩ | ⟨t', q, h1, h2⟩ | ⟨h1, _⟩ | ⟨h1, _⟩
        · exact absurd h2 (k.1.1 _ _ _ h1)
        · rw [(k.2 t' q h1).2] at h2; cases h2
        · cases h1
        · cases h1
  | .decay l, t, h, hn => by
    obtain ⟨n, hl⟩ := pointee_decay h
    exact ⟨(knownL hC l _ hl hn).1, fun t' m e => absurd e (buildL_ne_addr hC l _ hl t' m)⟩
  | .value l, t, h, hn => by
    have hl := pointee_value h
    exact ⟨(knownL hC l _ hl hn).1, fun t' m e => absurd e (buildL_ne_addr hC l _ hl t' m)⟩
  | .cast u p, t, h, hn => by
    obtain ⟨_, v, hv⟩ := pointee_cast h
    have k := knownP hC p v hv hn
    refine ⟨k.1.cast u, fun t' m e => ?_⟩
    rcases castA_ptr_form C P (buildP C P p) u with h' | h'
    · exact k.2 t' m (h'.symm.trans e)
    · rw [show buildP C P (.cast u p) = castA C P (buildP C P p) (.ptr u) from rfl, h'] at e; cases e
  | .ofInt _ _, _, _, hn => hn.elim
  | .add p i, t, h, hn => ⟨(knownP hC p t (pointee_add h).1 hn.1).1.ptrOf.add _ _ _, fun _ _ e => by cases e⟩
  | .radd i p, t, h, hn => ⟨(knownP hC p t (pointee_radd h).1 hn.2).1.ptrOf.radd _ _ _, fun _ _ e => by cases e⟩
  | .sub p i, t, h, hn => ⟨(knownP hC p t (pointee_sub h).1 hn.1).1.ptrOf.sub _ _, fun _ _ e => by cases e⟩
end

theorem Known.constOf {n : ANode} (h : Known C P n) : constOf C P n = none := by
  unfold Addr.constOf; rw [h.2]; rfl

/-! Pointer expressions. -/

/-- An array stays one only as itself. -/
theorem buildP_arr (hC : C.Ok) (p : PE) (t : OTy) (h : p.pointee P = some t) (hn : p.NoConv) :
    (buildP C P p).ty = .ptr t ∨ ∃ l n, p = .decay l ∧ l.ty P = some (.arr t n) := by
  cases p with
  | decay l => obtain ⟨n, hl⟩ := pointee_decay h; exact .inr ⟨l, n, rfl, hl⟩
  | value l => exact .inl (buildL_ty C P hC l _ (pointee_value h))
  | ofInt _ _ => exact hn.elim
  | addr l =>
    left
    show OTy.ptr (buildL C P l).ty = _
    rw [buildL_ty C P hC l t (by simpa [PE.pointee] using h)]
  | cast u p =>
    left
    rw [← (pointee_cast h).1]
    exact castA_ty C P hC _ _
  | add p i =>
    left
    show OTy.ptr (baseOf (buildP C P p).ty) = _
    rw [pointee_base C P hC p t (pointee_add h).1]
  | radd i p =>
    left
    show OTy.ptr (baseOf (buildP C P p).ty) = _
    rw [pointee_base C P hC p t (pointee_radd h).1]
  | sub p i =>
    left
    show OTy.ptr (baseOf (buildP C P p).ty) = _
    rw [pointee_base C P hC p t (pointee_sub h).1]

/-- What the trees of two pointer expressions with the same meaning have in common. -/
structure Alike (P : ODecls) (p q : PE) : Prop where
  eval : ∀ M, q.eval P M = p.eval P M
  wf : p.Wf → q.Wf
  conv : p.NoConv → q.NoConv
  exprs : q.exprs = p.exprs
  fine : ∀ M E σ, p.Fine P M E σ → q.Fine P M E σ

/-- An operand of pointer arithmetic is the tree of a pointer expression. -/
theorem ptrOf_build (hC : C.Ok) (p : PE) (t : OTy) (h : p.pointee P = some t) (hn : p.NoConv) :
    ∃ q, ptrOf C P (buildP C P p) = buildP C P q ∧ q.pointee P = some t ∧ (buildP C P q).ty = .ptr t ∧ Alike P p q := by
  rcases buildP_arr hC p t h hn with e | ⟨l, n, rfl, hl⟩
  · refine ⟨p, ?_, h, e, ⟨fun _ => rfl, id, id, rfl, fun _ _ _ h => h⟩⟩
    unfold ptrOf
    rw [e]
  · have e := buildL_ty C P hC l _ hl
    refine ⟨.cast t (.decay l), ?_, ?_, castA_ty C P hC _ _, ⟨fun _ => rfl, id, id, rfl, fun _ _ _ h => h⟩⟩
    · unfold ptrOf
      rw [show (buildP C P (.decay l)).ty = .arr t n from e]
      rfl
    · show ((PE.decay l).pointee P).map _ = _
      rw [h]; rfl

end
end Slimcc.AGen
