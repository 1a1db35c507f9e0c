import Verif.Lemmas.AddrCode
/-! The code of designators: the values of lvalues. -/
set_option autoImplicit false
namespace Slimcc.AGen
open Slimcc Slimcc.Spec Slimcc.Spec.CTy Slimcc.Ty Slimcc.X86 Slimcc.Gen Slimcc.Addr

section
variable {C : Cfg} {P : ODecls} {E : Env} {Pg : List Line} {M : Machine} {O : Objects}

theorem genA_expr (f : Nat) (n : ANode) (hn : ∀ t m, n ≠ .int t m) :
    (C.opt = true ∧ ∃ g, exprOptA C P E.loc O.at_ E.stk (run C P E O f .expr) (run C P E O f .addr) n = some g ∧ run C P E O (f + 1) .expr n = g) ∨
    run C P E O (f + 1) .expr n = exprPlainA C P E.loc E.stk (run C P E O f .expr) (run C P E O f .addr) n := by
  unfold run
  rw [genA.eq_def _ _ _ _ _ (f + 1)]
  dsimp only
  split
  · exact absurd rfl (hn _ _)
  · split
    · rename_i g hg
      split at hg
      · exact .inl ⟨by assumption, g, hg, rfl⟩
      · cases hg
    · exact .inr rfl

/-- A variable, an object pointed to, or a member. -/
def Place (n : ANode) : Prop := (∃ t x, n = .var t x) ∨ (∃ t a, n = .deref t a) ∨ ∃ t o a, n = .member t o a

theorem buildL_isPlace (hC : C.Ok) (l : LV) (t : OTy) (h : l.ty P = some t) : Place (buildL C P l) := by
  rcases buildL_place C P hC l t h with ⟨x, e⟩ | ⟨p, e, _⟩ | ⟨o, l', e⟩
  · exact .inl ⟨_, _, e⟩
  · exact .inr (.inl ⟨_, _, e⟩)
  · exact .inr (.inr ⟨_, _, _, e⟩)

theorem Place.memopPtr {n : ANode} (h : Place n) (obj : Nat → Int → MemOp) :
    memopPtr C P obj n = if isArr n.ty then evalMemop C P obj true n else none := by
  rcases h with ⟨t, x, rfl⟩ | ⟨t, a, rfl⟩ | ⟨t, o, a, rfl⟩ <;> rfl

theorem Place.memopA {n : ANode} (h : Place n) (loc : Nat → MemOp) (obj : Nat → Int → MemOp) : memopA C P loc obj n = evalMemop C P obj false n := by
  rcases h with ⟨t, x, rfl⟩ | ⟨t, a, rfl⟩ | ⟨t, o, a, rfl⟩ <;> rfl

theorem Place.ne_int {n : ANode} (h : Place n) : ∀ t m, n ≠ .int t m := by
  rcases h with ⟨t, x, rfl⟩ | ⟨t, a, rfl⟩ | ⟨t, o, a, rfl⟩ <;> intro _ _ e <;> cases e

theorem isArr_gp {t : OTy} (h : isArr t = true) : gpTy t = false := by cases t <;> first | rfl | cases h

/-- codegen.c:2865-2959 on an object. -/
theorem exprOpt_place {loc : Nat → MemOp} {obj : Nat → Int → MemOp} {stk : Nat} {recE recA : ANode → G} {n : ANode} (hp : Place n) (hk : constOf C P n = none) {g : G}
    (h : exprOptA C P loc obj stk recE recA n = some g) :
    (∃ m, gpTy n.ty = false ∧ evalMemop C P obj true n = some m ∧ g = inss [.lea m .ax]) ∨
    (∃ m, gpTy n.ty = true ∧ evalMemop C P obj false n = some m ∧ g = inss [loadTy n.ty m]) ∨
    (∃ t a, n = .deref t a ∧ g = (recE (walk C P a).1 ;; inss (if gpTy t then [loadTy t (.off .ax (intOfs (walk C P a).2))] else immAdd 8 .ax (walk C P a).2))) ∨
    (∃ t o a, n = .member t o a ∧ g = (recA (memberWalk n).1 ;; inss (if gpTy t then [loadTy t (.off .ax (intOfs (memberWalk n).2))] else immAdd 8 .ax (memberWalk n).2))) := by
  unfold exprOptA at h
  rw [hk] at h
  simp only [ite_self] at h
  have hb : boolOptA C loc stk recE n = none := by rcases hp with ⟨t, x, rfl⟩ | ⟨t, a, rfl⟩ | ⟨t, o, a, rfl⟩ <;> rfl
  have hgp : gpOptA C P loc obj recE n = none := by rcases hp with ⟨t, x, rfl⟩ | ⟨t, a, rfl⟩ | ⟨t, o, a, rfl⟩ <;> rfl
  have htr : truncOptA C P loc obj recE n = none := by rcases hp with ⟨t, x, rfl⟩ | ⟨t, a, rfl⟩ | ⟨t, o, a, rfl⟩ <;> rfl
  have hlo : loadOptA C P loc obj n = (if isArr n.ty then evalMemop C P obj true n else none).map fun m => inss [.lea m .ax] := by
    unfold loadOptA
    rw [hp.memopPtr]
    split
    · rename_i m hm; rw [hm]; rfl
    · rename_i hm
      rw [hm]
      rcases hp with ⟨t, x, rfl⟩ | ⟨t, a, rfl⟩ | ⟨t, o, a, rfl⟩ <;> rfl
  rw [hb, hgp, htr, hlo, hp.memopA] at h
  simp only [ite_self] at h
  split at h
  · rename_i g' hg
    injection h with h; subst h
    rw [Option.map_eq_some_iff] at hg
    obtain ⟨m, hm, e⟩ := hg
    split at hm
    · rename_i ha
      exact .inl ⟨m, isArr_gp ha, hm, e.symm⟩
    · cases hm
  · split at h
    · rename_i m hm
      injection h with h; subst h
      split at hm
      · rename_i hg
        exact .inr (.inl ⟨m, hg, hm, rfl⟩)
      · cases hm
    · split at h
      · rename_i m hm
        injection h with h; subst h
        split at hm
        · cases hm
        · rename_i hg
          exact .inl ⟨m, by simpa using hg, hm, rfl⟩
      · right; right
        rcases hp with ⟨t, x, rfl⟩ | ⟨t, a, rfl⟩ | ⟨t, o, a, rfl⟩
        · cases h
        · injection h with h; subst h
          exact .inl ⟨t, a, rfl, rfl⟩
        · injection h with h; subst h
          exact .inr ⟨t, o, a, rfl, rfl⟩

theorem lval_agg {t : OTy} (h : gpTy t = false) (a x : Word) : LVal M t a x ↔ x = a := by
  cases t with
  | int _ => cases h
  | ptr _ => cases h
  | arr _ _ => exact Iff.rfl
  | struct _ => exact Iff.rfl

/-- The last step of reading an object at an offset from %rax. -/
theorem end_calc {σ : Store} {s1 : St} (h : Here E M σ s1) {l : LV} {t : OTy} {σ0 σ' : Store} {a ofs : Word} (hacc : Acc P M E l t σ0)
    (he : l.eval P M σ0 = .ok (a, σ')) (h1 : a = s1.r .ax + ofs) (h2 : gpTy t = true → Short a (s1.r .ax)) :
    Calc E (if gpTy t then [loadTy t (.off .ax (intOfs ofs))] else immAdd 8 .ax ofs) s1 fun s' => LVal M t a (s'.r .ax) := by
  by_cases hg : gpTy t = true
  · rw [if_pos hg]
    refine loadTy_calc h t hg a (hacc.avail he) _ ?_
    rw [ea_off, short_ofs h1 (h2 hg), ← h1]
  · rw [if_neg hg]
    have hg' : gpTy t = false := by simpa using hg
    exact (immAdd_calc _ s1).imp fun s' _ r => by rw [lval_agg hg', r, h1]

/-- codegen.c:812-832 -/
theorem loadA_calc {σ : Store} {s1 : St} (h : Here E M σ s1) {l : LV} {t : OTy} {σ0 σ' : Store} {a : Word} (hacc : Acc P M E l t σ0)
    (he : l.eval P M σ0 = .ok (a, σ')) (h1 : s1.r .ax = a) : Calc E (loadA t) s1 fun s' => LVal M t a (s'.r .ax) := by
  unfold loadA
  by_cases hg : gpTy t = true
  · rw [if_pos hg]
    refine loadTy_calc h t hg a (hacc.avail he) _ ?_
    rw [ea_off, h1]; simp
  · rw [if_neg hg]
    have hg' : gpTy t = false := by simpa using hg
    exact calc_nil s1 _ ((lval_agg hg' _ _).2 h1)

/-- codegen.c:1655-1671, 2865-2959 -/
theorem stepVal (S : Setup C P E Pg M O) (f : Nat) (ihA : GAddr C P E Pg M O f) (ihP : GPtr C P E Pg M O f) : GVal C P E Pg M O (f + 1) := by
  intro l t hl hh
  have hty := buildL_ty C P S.hC l t hl.ty
  have hpl := buildL_isPlace S.hC l t hl.ty
  rcases genA_expr (C := C) (P := P) (E := E) (O := O) f (buildL C P l) hpl.ne_int with ⟨_, g, hg, e⟩ | e
  · rw [e]
    rcases exprOpt_place hpl (knownL S.hC l t hl.ty hl.conv).1.constOf hg with ⟨m, hgp, hm, rfl⟩ | ⟨m, hgp, hm, rfl⟩ | ⟨t', a, eb, rfl⟩ | ⟨t', o, a, eb, rfl⟩
    · obtain ⟨x, o, rfl, hx⟩ := evalMemop_some hm
      rw [hty] at hgp
      intro σ s σ' a c h hf he hK
      exact (gives_lea S hl hx σ s σ' a c h hf.1 he hK).imp fun s' _ q => ⟨q.1, (lval_agg hgp _ _).2 q.2⟩
    · obtain ⟨x, o, rfl, hx⟩ := evalMemop_some hm
      rw [hty] at hgp ⊢
      exact gives_load S hl hgp hx
    · cases l with
      | var x => cases eb
      | member l i =>
        obtain ⟨s0, o, hs, hm, eb'⟩ := buildL_member (C := C) S.hC l i t hl.ty
        rw [eb'] at eb; cases eb
      | deref p =>
        have eb' := buildL_deref (C := C) S.hC p t hl.ty
        have eh := height_deref S hl.ty
        rw [eb'] at eb
        injection eb with e1 e2
        subst e1; subst e2
        intro σ s σ' a c h hf he hK
        refine seq_calc (gives_walk S ihP hl.deref (by omega) h hf.1.2 he (seq_st1 hK)) fun s1 h1 q => ?_
        exact end_calc h1 hf.2 he q.1 fun hg => q.2 a (hf.2.close hg he) (short_self a)
    · cases l with
      | var x => cases eb
      | deref p => rw [buildL_deref (C := C) S.hC p t hl.ty] at eb; cases eb
      | member l i =>
        obtain ⟨s0, o', hs, hm, eb'⟩ := buildL_member (C := C) S.hC l i t hl.ty
        have eh := height_member S hl.ty
        have e1 : t = t' := by rw [eb'] at eb; injection eb
        subst e1
        intro σ s σ' a c h hf he hK
        refine seq_calc (gives_memberWalk S ihA hl (by omega) h hf.1 he (seq_st1 hK)) fun s1 h1 q => ?_
        exact end_calc h1 hf.2 he q.1 fun hg => q.2 a (hf.2.close hg he) (short_self a)
  · rw [e]
    have key : Gives E Pg M (run C P E O f .addr (buildL C P l) ;; inss (loadA t)) (l.eval P M) (fun σ => l.Fine P M E σ ∧ Acc P M E l t σ) (fun a x => LVal M t a x) := by
      intro σ s σ' a c h hf he hK
      exact seq_calc (ihA l t hl (by omega) σ s σ' a c h hf.1 he (seq_st1 hK)) fun s1 h1 q => loadA_calc h1 hf.2 he q
    cases l with
    | var x =>
      have : P.objs x = t := by simpa [LV.ty] using hl.ty
      subst this
      exact key
    | deref p =>
      have eb := buildL_deref (C := C) S.hC p t hl.ty
      have eh := height_deref S hl.ty
      rw [eb]
      intro σ s σ' a c h hf he hK
      exact seq_calc (ihP p t hl.deref (by omega) σ s σ' a c h hf.1.2 he (seq_st1 hK)) fun s1 h1 q => loadA_calc h1 hf.2 he q
    | member l i =>
      obtain ⟨s0, o, hs, hm, eb⟩ := buildL_member (C := C) S.hC l i t hl.ty
      rw [eb] at key ⊢
      exact key

end
end Slimcc.AGen
