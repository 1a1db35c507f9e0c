import Verif.Lemmas.AddrSound
/-!
Lemmas for C59: designators and address constants that are accepted.
-/
set_option autoImplicit false
namespace Slimcc.Addr
open Slimcc Slimcc.Spec Slimcc.Ty Slimcc.Props

section
variable (C : Cfg) (P : ODecls)

theorem Index.wf {i : IE} (h : Index P i) : i.Wf ∧ i.NoSum := by
  cases h with
  | mk e v σ σ' h1 h2 h3 h4 => exact ⟨h1, trivial⟩

theorem Fixed.wf {l : LV} (h : Fixed P l) : l.Wf ∧ l.NoSum := by
  induction h with
  | var x => exact ⟨trivial, trivial⟩
  | «at» t i h => exact Index.wf P h
  | member l i h ih => exact ih
  | elem l i h hi ih => exact ⟨⟨ih.1, (Index.wf P hi).1⟩, ⟨ih.2, (Index.wf P hi).2⟩⟩

theorem AddrConst.wf {p : PE} (h : AddrConst P p) : p.Wf ∧ p.NoSum := by
  induction h with
  | addr l h => exact Fixed.wf P h
  | decay l h => exact Fixed.wf P h
  | cast t p _ ih => exact ih
  | add p i _ hi ih => exact ⟨⟨ih.1, (Index.wf P hi).1⟩, ⟨ih.2, (Index.wf P hi).2⟩⟩
  | radd i p hi _ ih => exact ⟨⟨(Index.wf P hi).1, ih.1⟩, ⟨(Index.wf P hi).2, ih.2⟩⟩
  | sub p i _ hi ih => exact ⟨⟨ih.1, (Index.wf P hi).1⟩, ⟨ih.2, (Index.wf P hi).2⟩⟩

theorem index_ev {i : IE} (h : Index P i) (k : EvKind) (c : Ctx) : ∃ v, ev C P (buildI C P i) k c = some (v, c) := by
  cases h with
  | mk e v σ σ' h1 h2 h3 h4 =>
    have := C17_accepts C.hs C.opt P.ints e h1 h2 σ σ' h3 v h4
    unfold constExpr at this
    exact ⟨BitVec.ofInt 64 v, by rw [show buildI C P (.expr e) = .int (e.ty P.ints) (build C.hs C.opt P.ints e) from rfl, ev, this]⟩

theorem index_scale {i : IE} (h : Index P i) (size : Nat) (k : EvKind) (c : Ctx) :
    ∃ v, ev C P (scale C P (buildI C P i) size) k c = some (v, c) := by
  cases h with
  | mk e v σ σ' h1 h2 h3 h4 =>
    have hb : mkBin C.hs C.opt .mul (build C.hs C.opt P.ints e) (.num ty_long (BitVec.ofNat 64 size)) =
        build C.hs C.opt P.ints (.bin (.ar .mul) e (.num .long (BitVec.ofNat 64 size).toInt)) := by
      show _ = mkBin C.hs C.opt .mul _ (.num ty_long (BitVec.ofInt 64 (BitVec.ofNat 64 size).toInt))
      rw [BitVec.ofInt_toInt]
    have g1 := (BitVec.ofNat 64 size).le_toInt
    have g2 := (BitVec.ofNat 64 size).toInt_lt
    have hw' : Expr.Wf (.bin (.ar .mul) e (.num .long (BitVec.ofNat 64 size).toInt)) :=
      ⟨h1, show (-(2 ^ 63) : Int) ≤ _ by omega, show _ ≤ (2 ^ 63 - 1 : Int) by omega⟩
    have hc : ceval P.ints (.bin (.ar .mul) e (.num .long (BitVec.ofNat 64 size).toInt)) σ =
        .ok (CTy.conv (CTy.common (e.ty P.ints).promote CTy.long)
          (CTy.conv (CTy.common (e.ty P.ints).promote CTy.long) v *
           CTy.conv (CTy.common (e.ty P.ints).promote CTy.long) (BitVec.ofNat 64 size).toInt), σ') := by
      show (do
        let (v, σ) ← ceval P.ints e σ
        let (w, σ) ← ceval P.ints (.num .long (BitVec.ofNat 64 size).toInt) σ
        let r ← binop (.ar .mul) (e.ty P.ints) .long v w
        Res.ok (r, σ)) = _
      rw [h4]
      rfl
    have := C17_accepts C.hs C.opt P.ints _ hw' ⟨h2, trivial⟩ σ σ' h3 _ hc
    unfold constExpr at this
    refine ⟨BitVec.ofInt 64 (CTy.conv (CTy.common (e.ty P.ints).promote CTy.long)
          (CTy.conv (CTy.common (e.ty P.ints).promote CTy.long) v *
           CTy.conv (CTy.common (e.ty P.ints).promote CTy.long) (BitVec.ofNat 64 size).toInt)), ?_⟩
    · show ev C P (scale C P (.int (e.ty P.ints) (build C.hs C.opt P.ints e)) size) k c = _
      unfold scale
      dsimp only
      rw [hb, ev, this]

/-- Designators other than a variable that is neither an array nor a structure are evaluated. -/
theorem fixed_agg (hC : C.Ok) {l : LV} (h : Fixed P l) : ∀ (t : OTy), l.ty P = some t →
    (∀ x, l = .var x → isArr t = true ∨ ∃ s, t = .struct s) → ∀ c : Ctx, (c.pend = true → isArr t = true) →
    ∃ v c', ev C P (buildL C P l) .agg c = some (v, c') ∧
      (∀ x, l.root = some x → c'.var = some x ∧ c'.pend = false ∧ c'.cnt = c.cnt - dims t) ∧
      (l.root = none → c'.var = c.var) := by
  induction h with
  | var x =>
    intro t ht hv c hc
    have e : P.objs x = t := by simpa [LV.ty] using ht
    show ∃ v c', ev C P (.var (P.objs x) x) .agg c = some (v, c') ∧ _
    rw [e]
    rcases hv x rfl with ha | ⟨s, hs⟩
    · cases t with
      | arr t n =>
        refine ⟨0, { enter (.arr t n) c with var := some x }, by rw [ev], ?_, by intro h; cases h⟩
        intro y hy
        injection hy with hy
        exact ⟨by rw [hy], rfl, rfl⟩
      | _ => cases ha
    · subst hs
      refine ⟨0, { c with var := some x }, by rw [ev], ?_, by intro h; cases h⟩
      intro y hy
      injection hy with hy
      refine ⟨by rw [hy], ?_, by simp [dims]⟩
      cases hp : c.pend with
      | false => rfl
      | true => have := hc hp; cases this
  | «at» t i hi =>
    intro t' ht _ c hc
    have e : t' = t := by
      have : (i.ty P).map (fun _ => t) = some t' := ht
      cases hi' : i.ty P with
      | none => rw [hi'] at this; cases this
      | some u => rw [hi'] at this; injection this with this; exact this.symm
    subst e
    have hcast : castA C P (buildI C P i) (.ptr t') = .cast (.ptr t') (buildI C P i) := by
      rcases castA_ptr_form C P (buildI C P i) t' with h | h
      · have h1 := castA_ty C P hC (buildI C P i) (.ptr t')
        rw [h] at h1
        cases hi with
        | mk e v σ σ' _ _ _ _ => cases h1
      · exact h
    have hb : buildL C P (.deref (.ofInt t' i)) = .deref t' (.cast (.ptr t') (buildI C P i)) := by
      show ANode.deref (baseOf (castA C P (buildI C P i) (.ptr t')).ty) (castA C P (buildI C P i) (.ptr t')) = _
      rw [hcast]; rfl
    obtain ⟨v, hv⟩ := index_ev C P hi .agg { c with pend := true, cnt := c.cnt + 1 }
    have hroot : i.root = none := by cases hi; rfl
    refine ⟨v, { c with pend := true, cnt := c.cnt + 1 }, ?_, ?_, fun _ => rfl⟩
    · rw [hb, ev_deref_agg C P _ _ _ (by intro _ _ h; cases h), if_pos, ev_cast_ptr, hv]
      show (true && (!c.pend || isArr t')) = true
      cases hp : c.pend with
      | false => rfl
      | true => rw [hc hp]; rfl
    · intro x hx
      have : i.root = some x := hx
      rw [hroot] at this; cases this
  | member l i hl ih =>
    intro t ht _ c hc
    unfold LV.ty at ht
    split at ht
    · rename_i s hs
      have e := buildL_ty C P hC l _ hs
      cases hm : (P.structs s).members[i]? with
      | none => rw [hm] at ht; cases ht
      | some m =>
        rw [hm] at ht
        simp only [Option.map_some, Option.some.injEq] at ht
        have hb : buildL C P (.member l i) = .member t m.1 (buildL C P l) := by
          show memberOf P (buildL C P l) i = _
          unfold memberOf
          rw [e]
          simp only [hm, ht]
        have hpe : (enter t c).pend = false := by
          unfold enter
          split
          · rfl
          · rename_i ha
            cases hp : c.pend with
            | false => rfl
            | true => exact absurd (hc hp) ha
        obtain ⟨v, c', h1, h2, h3⟩ := ih _ hs (fun x _ => .inr ⟨s, rfl⟩) (enter t c) (by rw [hpe]; intro h; cases h)
        refine ⟨v + BitVec.ofNat 64 m.1, c', by rw [hb, ev_member_agg, h1]; rfl, ?_, ?_⟩
        · intro x hx
          obtain ⟨g1, g2, g3⟩ := h2 x hx
          refine ⟨g1, g2, ?_⟩
          rw [g3]
          unfold enter
          split
          · simp [dims]
          · rename_i ha
            have : dims t = 0 := by cases t <;> simp [isArr] at ha <;> rfl
            rw [this]; simp [dims]
        · intro hr; rw [h3 hr, enter_var]
    · cases ht
  | elem l i hl hi ih =>
    intro t ht _ c hc
    have hp : (PE.add (.decay l) i).pointee P = some t := ht
    have hpl : (PE.decay l).pointee P = some t := by
      unfold PE.pointee at hp
      cases hi' : i.ty P with
      | none => rw [hi'] at hp; cases hp
      | some u => rw [hi'] at hp; exact hp
    have hl' : ∃ n, l.ty P = some (.arr t n) := by
      unfold PE.pointee at hpl
      split at hpl
      · rename_i t' k hs
        injection hpl with hpl; subst hpl; exact ⟨k, hs⟩
      · cases hpl
    obtain ⟨k, hs⟩ := hl'
    have hbb : baseOf (buildL C P l).ty = t := pointee_base C P hC (.decay l) t hpl
    have hb : buildL C P (.deref (.add (.decay l) i)) = .deref t (.add (.ptr t) (ptrOf C P (buildL C P l))
        (scale C P (buildI C P i) (P.sizeof t))) := by
      show ANode.deref (baseOf (ANode.add (.ptr (baseOf (buildL C P l).ty)) _ _).ty) (.add (.ptr (baseOf (buildL C P l).ty))
        (ptrOf C P (buildL C P l)) (scale C P (buildI C P i) (P.sizeof (baseOf (buildL C P l).ty)))) = _
      rw [hbb]; rfl
    obtain ⟨v, c', h1, h2, h3⟩ := ih _ hs (fun x _ => .inl rfl) { c with pend := true, cnt := c.cnt + 1 } (fun _ => rfl)
    obtain ⟨w, hw⟩ := index_scale C P hi (P.sizeof t) .agg c'
    refine ⟨v + w, c', ?_, ?_, h3⟩
    · rw [hb, ev_deref_agg C P _ _ _ (by intro _ _ h; cases h), if_pos, ev, ev_ptrOf C P hC, h1]
      · dsimp only
        rw [hw]; rfl
      · show (true && (!c.pend || isArr t)) = true
        cases hp : c.pend with
        | false => rfl
        | true => rw [hc hp]; rfl
    · intro x hx
      obtain ⟨g1, g2, g3⟩ := h2 x hx
      refine ⟨g1, g2, ?_⟩
      rw [g3]
      simp only [dims]
      omega

theorem varOfs_sub {r : Option (BitVec 64 × Ctx)} {y : Nat × Int} (h : varOfs false r = some y) : varOfs true r = some y := by
  unfold varOfs at h ⊢
  cases r with
  | none => exact h
  | some r =>
    dsimp only at h ⊢
    cases hv : r.2.var with
    | none => rw [hv] at h; exact h
    | some x =>
      rw [hv] at h
      dsimp only at h ⊢
      split at h
      · rename_i hc
        simp only [Bool.false_and, Bool.or_false, Bool.and_eq_true, Bool.not_eq_true', beq_iff_eq] at hc
        rw [if_pos (by rw [hc.1, hc.2]; rfl)]
        exact h
      · cases h

theorem evalVar_sub {n : ANode} {y : Nat × Int} (h : evalVar C P false n = some y) : evalVar C P true n = some y := by
  cases n with
  | member t o a => exact varOfs_sub h
  | deref t a => exact varOfs_sub h
  | _ => exact h

theorem dims_nonneg : ∀ t : OTy, 0 ≤ dims t
  | .arr t _ => by have := dims_nonneg t; simp only [dims]; omega
  | .int _ => by simp [dims]
  | .ptr _ => by simp [dims]
  | .struct _ => by simp [dims]

theorem fixed_isPart (hC : C.Ok) (l : LV) (t : OTy) (ht : l.ty P = some t) (hv : ∀ x, l ≠ .var x) : (buildL C P l).isPart = true := by
  cases l with
  | var x => exact absurd rfl (hv x)
  | deref p => rfl
  | member l i =>
    unfold LV.ty at ht
    split at ht
    · rename_i s hs
      have e := buildL_ty C P hC l _ hs
      show (memberOf P (buildL C P l) i).isPart = true
      unfold memberOf
      rw [e]
      dsimp only
      cases hm : (P.structs s).members[i]? with
      | none => rw [hm] at ht; cases ht
      | some m => rfl
    · cases ht

/-- Such a designator of a variable is resolved. -/
theorem fixed_place (hC : C.Ok) {l : LV} (h : Fixed P l) (t : OTy) (ht : l.ty P = some t) (x : Nat)
    (hr : l.root = some x) (sub : Bool) (hs : sub = true ∨ isArr t = false) :
    ∃ o, evalVar C P sub (buildL C P l) = some (x, o) := by
  by_cases hv : ∀ y, l ≠ .var y
  · obtain ⟨v, c', h1, h2, _⟩ := fixed_agg C P hC h t ht (fun y e => absurd e (hv y)) {} (by intro h; cases h)
    obtain ⟨g1, g2, g3⟩ := h2 x hr
    refine ⟨(v.setWidth 32).toInt, ?_⟩
    rw [evalVar_part C P (fixed_isPart C P hC l t ht hv), h1]
    unfold varOfs
    dsimp only
    rw [g1]
    dsimp only
    rw [if_pos]
    rw [g2, g3]
    have := dims_nonneg t
    rcases hs with hs | hs
    · subst hs
      simp only [Bool.not_false, Bool.true_and, Bool.or_eq_true, beq_iff_eq, decide_eq_true_eq]
      show (0 : Int) - dims t = 0 ∨ (0 : Int) - dims t < 0
      omega
    · have : dims t = 0 := by cases t <;> simp [isArr] at hs <;> rfl
      rw [this]; rfl
  · have : ∃ y, l = .var y := Classical.byContradiction fun h => hv fun y e => h ⟨y, e⟩
    obtain ⟨y, e⟩ := this
    subst e
    injection hr with hr
    subst hr
    exact ⟨0, rfl⟩

theorem fixed_number (hC : C.Ok) {l : LV} (h : Fixed P l) (t : OTy) (ht : l.ty P = some t) (hr : l.root = none) :
    ∃ v, evalNonVar C P (buildL C P l) = some v := by
  have hv : ∀ y, l ≠ .var y := by intro y e; rw [e] at hr; cases hr
  obtain ⟨v, c', h1, _, h3⟩ := fixed_agg C P hC h t ht (fun y e => absurd e (hv y)) {} (by intro h; cases h)
  refine ⟨v, ?_⟩
  unfold evalNonVar
  rw [if_pos (fixed_isPart C P hC l t ht hv), h1]
  unfold nonVar
  dsimp only
  rw [h3 hr]
  rfl

theorem labelOf_some {r : Nat × Int} {c : Ctx} (hc : c.label = false) : labelOf (some r) c =
    some (BitVec.ofInt 64 r.2, { c with label := true, var := some r.1 }) := by
  unfold labelOf; rw [hc]; rfl

/-- The label of an array. -/
theorem fixed_lab (hC : C.Ok) {l : LV} (h : Fixed P l) (t : OTy) (ht : l.ty P = some t) (ha : isArr t = true) (x : Nat)
    (hr : l.root = some x) (c : Ctx) (hc : c.label = false) :
    ∃ v c', ev C P (buildL C P l) .lab c = some (v, c') ∧ c'.label = true := by
  obtain ⟨o, ho⟩ := fixed_place C P hC h t ht x hr true (.inl rfl)
  cases h with
  | var y =>
    have e : P.objs y = t := by simpa [LV.ty] using ht
    refine ⟨BitVec.ofInt 64 0, { c with label := true, var := some y }, ?_, rfl⟩
    show ev C P (.var (P.objs y) y) .lab c = _
    rw [e, ev, if_pos ha, labelOf_some hc]
  | «at» t' i hi =>
    have : i.root = some x := hr
    cases hi; cases this
  | member l i hl =>
    unfold LV.ty at ht
    split at ht
    · rename_i s hs
      have e := buildL_ty C P hC l _ hs
      cases hm : (P.structs s).members[i]? with
      | none => rw [hm] at ht; cases ht
      | some m =>
        rw [hm] at ht
        simp only [Option.map_some, Option.some.injEq] at ht
        have hb : buildL C P (.member l i) = .member t m.1 (buildL C P l) := by
          show memberOf P (buildL C P l) i = _
          unfold memberOf
          rw [e]
          simp only [hm, ht]
        rw [hb] at ho ⊢
        rw [evalVar_part C P rfl] at ho
        rw [ev_member_lab, if_pos ha, ho, labelOf_some hc]
        exact ⟨_, _, rfl, rfl⟩
    · cases ht
  | elem l i hl hi =>
    have hb : buildL C P (.deref (.add (.decay l) i)) = .deref (baseOf (buildL C P l).ty) (.add (.ptr (baseOf (buildL C P l).ty))
        (ptrOf C P (buildL C P l)) (scale C P (buildI C P i) (P.sizeof (baseOf (buildL C P l).ty)))) := rfl
    have hbb : baseOf (buildL C P l).ty = t := by
      have := buildL_ty C P hC _ t ht
      rw [hb] at this
      exact this
    rw [hb, hbb] at ho ⊢
    rw [evalVar_part C P rfl] at ho
    rw [ev_deref_lab C P _ _ _ (by intro _ _ h; cases h), if_pos ha, ho, labelOf_some hc]
    exact ⟨_, _, rfl, rfl⟩

theorem addr_fixed (hC : C.Ok) {l : LV} (h : Fixed P l) (t : OTy) (ht : l.ty P = some t) (x : Nat)
    (hr : l.root = some x) (t' : OTy) (c : Ctx) (hc : c.label = false) :
    ∃ v c', ev C P (.addr t' (buildL C P l)) .lab c = some (v, c') ∧ c'.label = true := by
  obtain ⟨o, ho⟩ := fixed_place C P hC h t ht x hr true (.inl rfl)
  have hnon : (if (buildL C P l).isPart then nonVar (ev C P (buildL C P l) .agg {}) else none) = none := by
    split
    · by_cases hv : ∀ y, l ≠ .var y
      · obtain ⟨v, c', h1, h2, _⟩ := fixed_agg C P hC h t ht (fun y e => absurd e (hv y)) {} (by intro h; cases h)
        rw [h1]; unfold nonVar; dsimp only; rw [(h2 x hr).1]; rfl
      · have : ∃ y, l = .var y := Classical.byContradiction fun h => hv fun y e => h ⟨y, e⟩
        obtain ⟨y, e⟩ := this
        subst e
        rename_i hp; cases hp
    · rfl
  rw [ev.eq_def]
  dsimp only
  rw [hnon]
  unfold fixedOr
  dsimp only
  cases h with
  | var y =>
    refine ⟨BitVec.ofInt 64 0, { c with label := true, var := some y }, ?_, rfl⟩
    show labelOf (some (y, 0)) c = _
    rw [labelOf_some hc]
  | «at» t' i hi =>
    have : i.root = some x := hr
    cases hi; cases this
  | member l i hl =>
    unfold LV.ty at ht
    split at ht
    · rename_i s hs
      have e := buildL_ty C P hC l _ hs
      cases hm : (P.structs s).members[i]? with
      | none => rw [hm] at ht; cases ht
      | some m =>
        rw [hm] at ht
        simp only [Option.map_some, Option.some.injEq] at ht
        have hb : buildL C P (.member l i) = .member t m.1 (buildL C P l) := by
          show memberOf P (buildL C P l) i = _
          unfold memberOf
          rw [e]
          simp only [hm, ht]
        rw [hb] at ho ⊢
        rw [evalVar_part C P rfl] at ho
        dsimp only
        rw [if_pos (show (ANode.member t m.1 (buildL C P l)).isPart = true from rfl), ho, labelOf_some hc]
        exact ⟨_, _, rfl, rfl⟩
    · cases ht
  | elem l i hl hi =>
    have hb : buildL C P (.deref (.add (.decay l) i)) = .deref (baseOf (buildL C P l).ty) (.add (.ptr (baseOf (buildL C P l).ty))
        (ptrOf C P (buildL C P l)) (scale C P (buildI C P i) (P.sizeof (baseOf (buildL C P l).ty)))) := rfl
    rw [hb]
    dsimp only
    have hp : (PE.add (.decay l) i).pointee P = some t := ht
    have hpl : (PE.decay l).pointee P = some t := by
      unfold PE.pointee at hp
      cases hi' : i.ty P with
      | none => rw [hi'] at hp; cases hp
      | some u => rw [hi'] at hp; exact hp
    unfold PE.pointee at hpl
    split at hpl
    · rename_i t2 k hs
      obtain ⟨v, c', h1, h2⟩ := fixed_lab C P hC hl _ hs rfl x hr c hc
      obtain ⟨w, hw⟩ := index_scale C P hi (P.sizeof (baseOf (buildL C P l).ty)) .lab c'
      rw [ev, ev_ptrOf C P hC, h1]
      dsimp only
      rw [hw]
      exact ⟨_, _, rfl, h2⟩
    · cases hpl

/-- An address constant made from a variable is a label and an addend. -/
theorem addrConst_lab (hC : C.Ok) {p : PE} (h : AddrConst P p) : ∀ (t : OTy), p.pointee P = some t → ∀ x, p.root = some x →
    ∀ c : Ctx, c.label = false → ∃ v c', ev C P (buildP C P p) .lab c = some (v, c') ∧ c'.label = true := by
  induction h with
  | addr l hl =>
    intro t ht x hr c hc
    exact addr_fixed C P hC hl t ht x hr _ c hc
  | decay l hl =>
    intro t ht x hr c hc
    unfold PE.pointee at ht
    split at ht
    · rename_i t2 k hs
      exact fixed_lab C P hC hl _ hs rfl x hr c hc
    · cases ht
  | cast t' p _ ih =>
    intro t ht x hr c hc
    unfold PE.pointee at ht
    cases hp : p.pointee P with
    | none => rw [hp] at ht; cases ht
    | some u =>
      obtain ⟨v, c', h1, h2⟩ := ih u hp x hr c hc
      refine ⟨v, c', ?_, h2⟩
      show ev C P (castA C P (buildP C P p) (.ptr t')) .lab c = _
      rw [ev_castA_ptr C P hC, h1]
  | add p i _ hi ih =>
    intro t ht x hr c hc
    unfold PE.pointee at ht
    cases hi' : i.ty P with
    | none => rw [hi'] at ht; cases ht
    | some u =>
      rw [hi'] at ht
      obtain ⟨v, c', h1, h2⟩ := ih t ht x hr c hc
      obtain ⟨w, hw⟩ := index_scale C P hi (P.sizeof (baseOf (buildP C P p).ty)) .lab c'
      refine ⟨v + w, c', ?_, h2⟩
      show ev C P (.add (.ptr _) (ptrOf C P (buildP C P p)) (scale C P (buildI C P i) (P.sizeof (baseOf (buildP C P p).ty)))) .lab c = _
      rw [ev, ev_ptrOf C P hC, h1]
      dsimp only
      rw [hw]; rfl
  | radd i p hi _ ih =>
    intro t ht x hr c hc
    unfold PE.pointee at ht
    cases hi' : i.ty P with
    | none => rw [hi'] at ht; cases ht
    | some u =>
      rw [hi'] at ht
      obtain ⟨v, c', h1, h2⟩ := ih t ht x hr c hc
      obtain ⟨w, hw⟩ := index_scale C P hi (P.sizeof (baseOf (buildP C P p).ty)) .lab c
      refine ⟨w + v, c', ?_, h2⟩
      show ev C P (.add (.ptr _) (scale C P (buildI C P i) (P.sizeof (baseOf (buildP C P p).ty))) (ptrOf C P (buildP C P p))) .lab c = _
      rw [ev, hw]
      dsimp only
      rw [ev_ptrOf C P hC, h1]; rfl
  | sub p i _ hi ih =>
    intro t ht x hr c hc
    unfold PE.pointee at ht
    cases hi' : i.ty P with
    | none => rw [hi'] at ht; cases ht
    | some u =>
      rw [hi'] at ht
      obtain ⟨v, c', h1, h2⟩ := ih t ht x hr c hc
      obtain ⟨w, hw⟩ := index_scale C P hi (P.sizeof (baseOf (buildP C P p).ty)) .con {}
      refine ⟨v - w, c', ?_, h2⟩
      show ev C P (.sub (.ptr _) (ptrOf C P (buildP C P p)) (scale C P (buildI C P i) (P.sizeof (baseOf (buildP C P p).ty)))) .lab c = _
      rw [ev, ev_ptrOf C P hC, h1]
      dsimp only
      rw [hw]; rfl

end
end Slimcc.Addr
