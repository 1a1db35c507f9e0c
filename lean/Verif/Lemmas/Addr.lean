import Verif.Model.Addr
import Verif.Props.C17
/-!
Lemmas for C59: what the evaluation of a designator to "variable plus constant" means.
-/
set_option autoImplicit false
namespace Slimcc.Addr
open Slimcc.Spec Slimcc.Ty
open Slimcc.Spec.CTy (InRange)

/-- Types that are one object in memory are equal. -/
def Cfg.Ok (C : Cfg) : Prop := ∀ a b : OTy, C.same a b = true → a = b

section
variable (C : Cfg) (P : ODecls)

theorem castA_ty (hC : C.Ok) (n : ANode) (t : OTy) : (castA C P n t).ty = t := by
  unfold castA
  split
  · rfl
  · split
    · split
      · rfl
      · split
        · rename_i h; exact hC _ _ h
        · split <;> rfl
    · rfl

theorem ptrOf_ty (hC : C.Ok) (n : ANode) (t : OTy) (h : n.ty = .ptr t ∨ ∃ k, n.ty = .arr t k) :
    (ptrOf C P n).ty = .ptr t := by
  unfold ptrOf
  rcases h with h | ⟨k, h⟩
  · rw [h]; exact h
  · rw [h]; exact castA_ty C P hC _ _

mutual
theorem buildL_ty (hC : C.Ok) : ∀ (l : LV) (t : OTy), l.ty P = some t → (buildL C P l).ty = t
  | .var x, t, h => by simpa [LV.ty, buildL, ANode.ty] using h
  | .deref p, t, h => by
    have i := buildP_ty hC p t (by simpa [LV.ty] using h)
    show baseOf (buildP C P p).ty = t
    rcases i with i | ⟨k, i⟩ <;> rw [i] <;> rfl
  | .member l i, t, h => by
    unfold LV.ty at h
    split at h
    · rename_i s hs
      have e := buildL_ty hC l _ hs
      cases hm : (P.structs s).members[i]? with
      | none => rw [hm] at h; cases h
      | some m =>
        rw [hm] at h
        simp only [Option.map_some, Option.some.injEq] at h
        show (memberOf P (buildL C P l) i).ty = t
        unfold memberOf
        rw [e]
        simp only [hm]
        exact h
    · cases h
theorem buildP_ty (hC : C.Ok) : ∀ (p : PE) (t : OTy), p.pointee P = some t →
    (buildP C P p).ty = .ptr t ∨ ∃ k, (buildP C P p).ty = .arr t k
  | .addr l, t, h => by
    left
    show OTy.ptr (buildL C P l).ty = _
    rw [buildL_ty hC l t (by simpa [PE.pointee] using h)]
  | .decay l, t, h => by
    right
    unfold PE.pointee at h
    split at h
    · rename_i t' k hs
      injection h with h
      exact ⟨k, by rw [← h]; exact buildL_ty hC l _ hs⟩
    · cases h
  | .value l, t, h => by
    left
    unfold PE.pointee at h
    split at h
    · rename_i t' hs
      injection h with h
      rw [← h]; exact buildL_ty hC l _ hs
    · cases h
  | .cast t' p, t, h => by
    left
    unfold PE.pointee at h
    cases hp : p.pointee P with
    | none => rw [hp] at h; cases h
    | some u =>
      rw [hp] at h; injection h with h
      show (castA C P _ _).ty = _
      rw [castA_ty C P hC]
      exact congrArg OTy.ptr h
  | .ofInt t' i, t, h => by
    left
    unfold PE.pointee at h
    cases hp : i.ty P with
    | none => rw [hp] at h; cases h
    | some u =>
      rw [hp] at h; injection h with h
      show (castA C P _ _).ty = _
      rw [castA_ty C P hC]
      exact congrArg OTy.ptr h
  | .add p i, t, h => by
    left
    unfold PE.pointee at h
    cases hi : i.ty P with
    | none => rw [hi] at h; cases h
    | some u =>
      rw [hi] at h
      show OTy.ptr (baseOf (buildP C P p).ty) = _
      rcases buildP_ty hC p t h with e | ⟨k, e⟩ <;> rw [e] <;> rfl
  | .radd i p, t, h => by
    left
    unfold PE.pointee at h
    cases hi : i.ty P with
    | none => rw [hi] at h; cases h
    | some u =>
      rw [hi] at h
      show OTy.ptr (baseOf (buildP C P p).ty) = _
      rcases buildP_ty hC p t h with e | ⟨k, e⟩ <;> rw [e] <;> rfl
  | .sub p i, t, h => by
    left
    unfold PE.pointee at h
    cases hi : i.ty P with
    | none => rw [hi] at h; cases h
    | some u =>
      rw [hi] at h
      show OTy.ptr (baseOf (buildP C P p).ty) = _
      rcases buildP_ty hC p t h with e | ⟨k, e⟩ <;> rw [e] <;> rfl
theorem buildI_ty (hC : C.Ok) : ∀ (i : IE) (t : CTy), i.ty P = some t → (buildI C P i).ty = .int t
  | .expr e, t, h => by
    have : e.ty P.ints = t := by simpa [IE.ty] using h
    show OTy.int _ = _
    rw [this]
  | .obj l, t, h => by
    unfold IE.ty at h
    split at h
    · rename_i t' hs
      injection h with h
      rw [← h]; exact buildL_ty hC l _ hs
    · cases h
  | .ofPtr t' p, t, h => by
    unfold IE.ty at h
    cases hp : p.pointee P with
    | none => rw [hp] at h; cases h
    | some u =>
      rw [hp] at h
      simp only [Option.bind_some] at h
      split at h
      · injection h with h
        show (castA C P _ _).ty = _
        rw [castA_ty C P hC, h]
      · cases h
  | .plus a b, t, h => by
    unfold IE.ty at h
    split at h
    · injection h with h
      show OTy.int .long = _
      rw [h]
    · cases h
end

theorem pointee_base (hC : C.Ok) (p : PE) (t : OTy) (h : p.pointee P = some t) : baseOf (buildP C P p).ty = t := by
  rcases buildP_ty C P hC p t h with e | ⟨k, e⟩ <;> rw [e] <;> rfl

/-! Equations of `ev`. -/

theorem ev_cast_ptr (t : OTy) (n : ANode) (k : EvKind) (c : Ctx) : ev C P (.cast (.ptr t) n) k c = ev C P n k c := by
  rw [ev]
  rw [if_neg (by intro h; cases h.1), if_neg (by intro h; exact h.1 rfl)]
  cases h : ev C P n k c with
  | none => rfl
  | some r => rfl

theorem ev_castA_ptr (hC : C.Ok) (t : OTy) (n : ANode) (k : EvKind) (c : Ctx) :
    ev C P (castA C P n (.ptr t)) k c = ev C P n k c := by
  unfold castA
  split
  · rename_i h; cases h
  · split
    · split
      · rename_i h _; cases h
      · split
        · rfl
        · split
          · rename_i e h
            simp [redundant] at h
          · exact ev_cast_ptr C P t _ k c
    · exact ev_cast_ptr C P t _ k c

theorem ev_ptrOf (hC : C.Ok) (n : ANode) (k : EvKind) (c : Ctx) : ev C P (ptrOf C P n) k c = ev C P n k c := by
  unfold ptrOf
  split
  · exact ev_castA_ptr C P hC _ n k c
  · rfl

theorem ev_deref_agg (t : OTy) (a : ANode) (c : Ctx) (h : ∀ (t' : OTy) (l : ANode), a ≠ .addr t' l) :
    ev C P (.deref t a) .agg c =
      if a.looked && (!c.pend || isArr t) then ev C P a .agg { c with pend := true, cnt := c.cnt + 1 } else none := by
  rw [ev]
  exact h

theorem ev_deref_lab (t : OTy) (a : ANode) (c : Ctx) (h : ∀ (t' : OTy) (l : ANode), a ≠ .addr t' l) :
    ev C P (.deref t a) .lab c =
      if isArr t then labelOf (varOfs true (ev C P (.deref t a) .agg {})) c else none := by
  rw [ev_deref_agg C P t a {} h, ev]
  exact h

theorem ev_deref_con (t : OTy) (a : ANode) (c : Ctx) (h : ∀ (t' : OTy) (l : ANode), a ≠ .addr t' l) :
    ev C P (.deref t a) .con c = none := by
  rw [ev]
  exact h

theorem ev_deref_addr (t t' : OTy) (l : ANode) (k : EvKind) (c : Ctx) :
    ev C P (.deref t (.addr t' l)) k c = ev C P l k c := by
  rw [ev]

theorem ev_member_agg (t : OTy) (o : Nat) (a : ANode) (c : Ctx) :
    ev C P (.member t o a) .agg c = (ev C P a .agg (enter t c)).map fun r => (r.1 + BitVec.ofNat 64 o, r.2) := by
  rw [ev]

theorem ev_member_lab (t : OTy) (o : Nat) (a : ANode) (c : Ctx) :
    ev C P (.member t o a) .lab c =
      if isArr t then labelOf (varOfs true (ev C P (.member t o a) .agg {})) c else none := by
  rw [ev_member_agg, ev]

theorem ev_member_con (t : OTy) (o : Nat) (a : ANode) (c : Ctx) : ev C P (.member t o a) .con c = none := by
  rw [ev]

/-- Either the tree is a fixed address, or the operand is looked at. -/
theorem ev_addr_cases (t : OTy) (a : ANode) (k : EvKind) (c : Ctx) (r : BitVec 64 × Ctx)
    (h : ev C P (.addr t a) k c = some r) :
    (∃ v c0, a.isPart = true ∧ ev C P a .agg {} = some (v, c0) ∧ c0.var = none ∧ r = (v, c)) ∨
    (∃ t' p, a = .deref t' p ∧ ev C P p k c = some r) ∨
    (k = .agg ∧ c.pend = true ∧ ev C P a .agg { c with pend := false } = some r) ∨
    (k = .lab ∧ labelOf (evalVar C P true a) c = some r) := by
  rw [ev.eq_def] at h
  dsimp only at h
  unfold fixedOr at h
  split at h
  · rename_i v hv
    left
    split at hv
    · rename_i hp
      unfold nonVar at hv
      split at hv
      · rename_i v' c' he
        split at hv
        · rename_i hn
          injection hv with hv; injection h with h
          exact ⟨v', c', hp, he, by simpa using hn, by rw [← h, hv]⟩
        · cases hv
      · cases hv
    · cases hv
  · right
    split at h
    · rename_i t' p _
      exact .inl ⟨t', p, rfl, h⟩
    · right
      split at h
      · left
        split at h
        · rename_i hp; exact ⟨rfl, hp, h⟩
        · cases h
      · right
        refine ⟨rfl, ?_⟩
        cases a with
        | var _ _ => exact h
        | member _ _ _ => exact h
        | deref _ _ => exact h
        | _ => cases h
      · cases h

end
end Slimcc.Addr
