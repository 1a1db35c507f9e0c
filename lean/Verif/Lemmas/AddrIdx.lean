import Verif.Lemmas.AddrPtr
import Verif.Lemmas.Compile
import Verif.Props.C16
/-! The code of designators: integer objects, converted and as indices. -/
set_option autoImplicit false
namespace Slimcc.AGen
open Slimcc Slimcc.Spec Slimcc.Spec.CTy Slimcc.Ty Slimcc.X86 Slimcc.Gen Slimcc.Addr

section
variable {C : Cfg} {P : ODecls} {E : Env} {Pg : List Line} {M : Machine} {O : Objects}

/-- The tree of an integer object, converted some times. -/
inductive OC (C : Cfg) (P : ODecls) (l : LV) (t0 : CTy) : ANode → CTy → (Int → Int) → Prop where
  | base : OC C P l t0 (buildL C P l) t0 id
  | cast (n : ANode) (u t : CTy) (f : Int → Int) (ht : t ≠ .bool) (h : OC C P l t0 n u f) : OC C P l t0 (.cast (.int t) n) t fun v => conv t (f v)

variable {l : LV} {t0 : CTy}

theorem OC.ty (hC : C.Ok) (hl : l.ty P = some (.int t0)) {n : ANode} {t : CTy} {f : Int → Int} (h : OC C P l t0 n t f) : n.ty = .int t := by
  cases h with
  | base => exact buildL_ty C P hC l _ hl
  | cast => rfl

theorem OC.range {n : ANode} {t : CTy} {f : Int → Int} (h : OC C P l t0 n t f) {v : Int} (hv : InRange t0 v) : InRange t (f v) := by
  cases h with
  | base => exact hv
  | cast => exact conv_range _ _

theorem OC.ne_int (hC : C.Ok) (hl : l.ty P = some (.int t0)) {n : ANode} {t : CTy} {f : Int → Int} (h : OC C P l t0 n t f) : ∀ u m, n ≠ .int u m := by
  cases h with
  | base => exact (buildL_isPlace hC l _ hl).ne_int
  | cast => intro _ _ e; cases e

theorem OC.inv (hC : C.Ok) (hl : l.ty P = some (.int t0)) {n : ANode} {t u : CTy} {f : Int → Int} (h : OC C P l t0 (.cast (.int t) n) u f) :
    ∃ u' f', t ≠ .bool ∧ OC C P l t0 n u' f' ∧ t = u ∧ f = fun v => conv u (f' v) := by
  generalize e : ANode.cast (.int t) n = n' at h
  cases h with
  | base =>
    rcases buildL_isPlace (C := C) hC l _ hl with ⟨_, _, e'⟩ | ⟨_, _, e'⟩ | ⟨_, _, _, e'⟩ <;> rw [e'] at e <;> cases e
  | cast n' u' t' f' ht' h' =>
    injection e with e1 e2
    injection e1 with e1
    subst e1 e2
    exact ⟨u', f', ht', h', rfl, rfl⟩

theorem OC.con (hC : C.Ok) (hl : l.ty P = some (.int t0)) (hn : l.NoConv) {n : ANode} {t : CTy} {f : Int → Int} (h : OC C P l t0 n t f) :
    ∀ c : Ctx, ev C P n .con c = none := by
  induction h with
  | base => exact (knownL hC l _ hl hn).1.2
  | cast n u t f ht _ ih =>
    intro c
    rw [ev, if_neg (by intro h; exact ht (by simpa using h.1))]
    split
    · rw [if_neg (by intro h; exact ht (by simpa using h))]
    · rw [ih]; rfl

theorem OC.constOf (hC : C.Ok) (hl : l.ty P = some (.int t0)) (hn : l.NoConv) {n : ANode} {t : CTy} {f : Int → Int} (h : OC C P l t0 n t f) :
    constOf C P n = none := by unfold Addr.constOf; rw [h.con hC hl hn]; rfl

/-- parse.c:346-382: what a conversion of such a tree is. -/
theorem OC.castA (hC : C.Ok) (hl : l.ty P = some (.int t0)) (hn : l.NoConv) {n : ANode} {u : CTy} {f : Int → Int} (h : OC C P l t0 n u f) (t : CTy) (ht : t ≠ .bool) :
    ∃ g, OC C P l t0 (castA C P n (.int t)) t g ∧ ∀ v, InRange t0 v → g v = conv t (f v) := by
  have hc : OC C P l t0 (.cast (.int t) n) t _ := .cast n u t f ht h
  have hno := hc.constOf hC hl hn
  have hni := h.ne_int hC hl
  have hty := h.ty hC hl
  unfold Addr.castA
  split
  · exact absurd rfl (hni _ _)
  · split
    · split
      · rename_i heq hv; rw [hno] at hv; cases hv
      · split
        · rename_i hs
          have e := hC _ _ hs
          rw [hty] at e
          injection e with e; subst e
          exact ⟨f, h, fun v hv => (conv_id u _ (h.range hv)).symm⟩
        · split
          · rename_i e he
            unfold redundant at he
            split at he
            · split at he
              · split at he
                · injection he with he
                  subst he
                  rename_i t3 hty3 hr
                  rename OTy.int t = OTy.int _ => heq
                  injection heq with heq; subst heq
                  obtain ⟨u', f', ht', h', rfl, rfl⟩ := h.inv hC hl
                  have hu := h'.ty hC hl
                  rw [hu] at hty3
                  injection hty3 with hty3; subst hty3
                  refine ⟨_, .cast _ _ t f' ht h', fun v hv => ?_⟩
                  have := Props.C16_redundant_cast (ity t) _ (ity u') (ity_wf _) (ity_wf _) (ity_wf _) (f' v)
                    (by rw [cty_ity]; exact h'.range hv) hr
                  rw [cty_ity, cty_ity] at this
                  exact this.symm
                · cases he
              · cases he
            · cases he
          · exact ⟨_, hc, fun v _ => rfl⟩
    · exact ⟨_, hc, fun v _ => rfl⟩

/-- codegen.c:218-224 on such a tree. -/
theorem OC.skip (hC : C.Ok) (hl : l.ty P = some (.int t0)) {n : ANode} {t : CTy} {f : Int → Int} (h : OC C P l t0 n t f) :
    (skipCastA P n = buildL C P l ∧ t.bytes = t0.bytes ∧ ∀ v, InRange t0 v → (2 : Int) ^ (8 * t.bytes) ∣ v - f v) ∨
    ∃ t' n', skipCastA P n = .cast (.int t') n' := by
  induction h with
  | base => exact .inl ⟨skip_place hC l _ hl, rfl, fun v _ => ⟨0, by simp⟩⟩
  | cast n u t f ht h ih =>
    rw [skipCastA, h.ty hC hl]
    by_cases hc : P.sizeof (.int t) = P.sizeof (.int u) ∧ OTy.int t ≠ .int .bool ∧ gpTy (.int t) = true ∧ gpTy (.int u) = true
    · rw [if_pos hc]
      rcases ih with ⟨i1, i2, i3⟩ | i
      · have hb : t.bytes = u.bytes := hc.1
        refine .inl ⟨i1, hb.trans i2, fun v hv => ?_⟩
        have h1 := i3 v hv
        have h2 := conv_dvd t (f v) t.bytes ht (by cases t <;> first | exact absurd rfl ht | exact (by decide))
        rw [← hb] at h1
        have := Int.dvd_add h1 h2
        rwa [show v - f v + (f v - conv t (f v)) = v - conv t (f v) by omega] at this
      · exact .inr i
    · rw [if_neg hc]; exact .inr ⟨_, _, rfl⟩

theorem OC.memopPtr (hC : C.Ok) (hl : l.ty P = some (.int t0)) {n : ANode} {t : CTy} {f : Int → Int} (h : OC C P l t0 n t f) (obj : Nat → Int → MemOp) :
    memopPtr C P obj n = none := by
  unfold AGen.memopPtr
  rcases h.skip hC hl with ⟨e, _⟩ | ⟨t', n', e⟩
  · rw [e]
    have := (buildL_isPlace (C := C) hC l _ hl).memopPtr (C := C) (P := P) obj
    unfold AGen.memopPtr at this
    rw [skip_place hC l _ hl] at this
    rw [this, buildL_ty C P hC l _ hl]; rfl
  · rw [e]

theorem OC.memop (hC : C.Ok) (hl : l.ty P = some (.int t0)) {n : ANode} {t : CTy} {f : Int → Int} (h : OC C P l t0 n t f) (loc : Nat → MemOp) (obj : Nat → Int → MemOp)
    {m : MemOp} (hm : memopA C P loc obj n = some m) :
    ∃ x o, m = obj x o ∧ evalVar C P true (buildL C P l) = some (x, o) ∧ t.bytes = t0.bytes ∧ ∀ v, InRange t0 v → (2 : Int) ^ (8 * t.bytes) ∣ v - f v := by
  unfold memopA at hm
  rcases h.skip hC hl with ⟨e, h1, h2⟩ | ⟨t', n', e⟩
  · rw [e] at hm
    have := (buildL_isPlace (C := C) hC l _ hl).memopA (C := C) (P := P) loc obj
    unfold memopA at this
    rw [skip_place hC l _ hl] at this
    rw [this] at hm
    obtain ⟨x, o, e1, e2⟩ := evalMemop_some hm
    exact ⟨x, o, e1, e2, h1, h2⟩
  · rw [e] at hm
    have hm : evalMemop C P obj false (.cast (.int t') n') = some m := hm
    rw [evalMemop_none rfl (by intro _ _ e; cases e)] at hm
    cases hm

theorem OC.bool (hC : C.Ok) (hl : l.ty P = some (.int t0)) {n : ANode} {t : CTy} {f : Int → Int} (h : OC C P l t0 n t f) (loc : Nat → MemOp) (stk : Nat) (recE : ANode → G)
    {g : G} (hg : boolA C loc stk recE n = some g) : g = recE (buildL C P l) ∧ t0 = .bool ∧ ∀ v, InRange .bool v → f v = v := by
  induction h with
  | base =>
    rw [boolA_L hC stk recE l _ hl] at hg
    split at hg
    · rename_i e
      injection e with e; injection hg with hg
      exact ⟨hg.symm, e, fun v _ => rfl⟩
    · cases hg
  | cast n u t f ht h ih =>
    obtain ⟨i1, i2, i3⟩ := ih hg
    refine ⟨i1, i2, fun v hv => ?_⟩
    show conv t (f v) = v
    rw [i3 v hv]
    apply conv_id
    have e1 : CTy.minVal .bool = 0 := by decide
    have e2 : CTy.maxVal .bool = 1 := by decide
    unfold InRange at hv ⊢
    rw [e1, e2] at hv
    have h1 : CTy.minVal t ≤ 0 := by cases t <;> decide
    have h2 : 1 ≤ CTy.maxVal t := by cases t <;> decide
    omega

theorem exprOpt_cast {loc : Nat → MemOp} {obj : Nat → Int → MemOp} {stk : Nat} {recE recA : ANode → G} {n : ANode} {t u : CTy} (hty : n.ty = .int u)
    (hop : ANode.op n = none) (ht : t ≠ .bool)
    (hk : constOf C P (.cast (.int t) n) = none) (hmp : memopPtr C P obj (.cast (.int t) n) = none) {g : G}
    (h : exprOptA C P loc obj stk recE recA (.cast (.int t) n) = some g) :
    (∃ m, memopA C P loc obj n = some m ∧
      (((ity t).size > (ity u).size ∧ (ity u).uns = false ∧ (ity t).size = 8 ∧ g = inss [loadExt64 (ity u) m .ax]) ∨
       ((ity t).size > (ity u).size ∧ ¬ ((ity u).uns = false ∧ (ity t).size = 8) ∧ ¬ ((ity t).size = 2 ∧ (ity t).uns = true ∧ (ity u).uns = false) ∧
          g = inss [loadExt (ity u) m .ax]) ∨
       (¬ (ity t).size > (ity u).size ∧ g = inss [loadExt (ity t) m .ax]))) ∨
    (∃ m, memopA C P loc obj (.cast (.int t) n) = some m ∧ g = inss [loadTy (.int t) m]) ∨
    boolA C loc stk recE n = some g := by
  unfold exprOptA at h
  have hgp : gpTy (ANode.cast (.int t) n).ty = true := rfl
  have htr : truncOptA C P loc obj recE (.cast (.int t) n) = none := by
    simp only [truncOptA, hop]
  have hgo : gpOptA C P loc obj recE (.cast (.int t) n) = none := rfl
  rw [hk, htr, hgo] at h
  simp only [hgp, if_true] at h
  cases hlo : loadOptA C P loc obj (.cast (.int t) n) with
  | some g' =>
    rw [hlo] at h
    injection h with h; subst h
    left
    simp only [loadOptA, hmp, hty, ne_eq] at hlo
    split at hlo
    · rename_i m hm
      refine ⟨m, hm, ?_⟩
      split at hlo
      · rename_i hsz
        split at hlo
        · rename_i h1
          injection hlo with hlo
          simp only [Bool.and_eq_true, Bool.not_eq_true', decide_eq_true_eq] at h1
          exact .inl ⟨hsz, h1.1, h1.2, hlo.symm⟩
        · rename_i h1
          simp only [Bool.and_eq_true, Bool.not_eq_true', decide_eq_true_eq] at h1
          split at hlo
          · rename_i h2
            injection hlo with hlo
            refine .inr (.inl ⟨hsz, h1, ?_, hlo.symm⟩)
            rintro ⟨a, b, c⟩
            rw [b, c] at h2
            simp [a] at h2
          · cases hlo
      · rename_i hsz
        injection hlo with hlo
        exact .inr (.inr ⟨hsz, hlo.symm⟩)
    · cases hlo
  | none =>
    rw [hlo] at h
    dsimp only at h
    cases hm : memopA C P loc obj (.cast (.int t) n) with
    | some m =>
      rw [hm] at h
      injection h with h
      exact .inr (.inl ⟨m, rfl, h.symm⟩)
    | none =>
      rw [hm] at h
      dsimp only at h
      have e : boolOptA C loc stk recE (.cast (.int t) n) = boolA C loc stk recE n := rfl
      rw [e] at h
      cases hb : boolA C loc stk recE n with
      | some g' => rw [hb] at h; injection h with h; rw [h]; exact .inr (.inr rfl)
      | none => rw [hb] at h; cases h

theorem OC.op (hC : C.Ok) (hl : l.ty P = some (.int t0)) {n : ANode} {t : CTy} {f : Int → Int} (h : OC C P l t0 n t f) : ANode.op n = none := by
  cases h with
  | base => rcases buildL_isPlace (C := C) hC l _ hl with ⟨_, _, e'⟩ | ⟨_, _, e'⟩ | ⟨_, _, _, e'⟩ <;> rw [e'] <;> rfl
  | cast => rfl

theorem OC.height {n : ANode} {t : CTy} {f : Int → Int} (h : OC C P l t0 n t f) : height (buildL C P l) ≤ height n := by
  induction h with
  | base => exact Nat.le_refl _
  | cast n u t f ht h ih => rw [AGen.height]; omega

/-- The value of such a tree. -/
theorem stepOC (S : Setup C P E Pg M O) (hl : LOk C P E l (.int t0)) {n : ANode} {t : CTy} {f : Int → Int} (h : OC C P l t0 n t f) :
    ∀ F, (∀ f' ≤ F, GVal C P E Pg M O f') → 2 * height n + 1 ≤ F →
      Gives E Pg M (run C P E O F .expr n) (l.eval P M) (fun σ => l.Fine P M E σ ∧ Acc P M E l (.int t0) σ) (fun a x => Reps (ity t) (f (M.int t0 a)) x) := by
  induction h with
  | base => intro F hV hh; exact hV F (Nat.le_refl _) l _ hl hh
  | cast n u t f ht h ih =>
    intro F hV hh
    obtain ⟨F, rfl⟩ : ∃ k, F = k + 1 := ⟨F - 1, by omega⟩
    have hhn : height (ANode.cast (.int t) n) = height n + 1 := rfl
    have hht := h.height
    have hc : OC C P l t0 (.cast (.int t) n) t _ := .cast n u t f ht h
    have hw := ity_wf
    have htk : (ity t).kind ≠ .bool := by cases t <;> first | exact absurd rfl ht | exact (by decide)
    rcases genA_expr (C := C) (P := P) (E := E) (O := O) F (.cast (.int t) n) (by intro _ _ e; cases e) with ⟨_, g, hg, e⟩ | e
    · rw [e]
      rcases exprOpt_cast (h.ty S.hC hl.ty) (h.op S.hC hl.ty) ht (hc.constOf S.hC hl.ty hl.conv) (hc.memopPtr S.hC hl.ty _) hg with ⟨m, hm, hg⟩ | ⟨m, hm, rfl⟩ | hb
      · obtain ⟨x, o, rfl, hx, hsz, hd⟩ := h.memop S.hC hl.ty _ _ hm
        intro σ s σ' a c hh hf he hK
        obtain ⟨e1, e2⟩ := place_at S.hC l _ hl.ty hl.wf hl.conv hx (S.sok hh) hf.1 he
        subst e2
        have hav := hf.2.avail he
        have := castLoad_calc (E := E) t0 a (hh.obj hav.1) (ity t) (ity u) (f (M.int t0 a)) (O.at_ x o) (ity_wf _) (ity_wf _)
          (by rw [cty_ity]; exact h.range hav.2) (by rw [← bytes_size]; exact hsz) (by rw [← bytes_size]; exact hd _ hav.2) (by rw [ea_obj S hh.bp, e1]) htk
        rw [cty_ity] at this
        rcases hg with ⟨h1, h2, h3, rfl⟩ | ⟨h1, h2, h3, rfl⟩ | ⟨h1, rfl⟩
        · exact here_calc hh (this.1 h1 h2 h3) c
        · exact here_calc hh (this.2.1 h1 h2 h3) c
        · exact here_calc hh (this.2.2 h1) c
      · obtain ⟨x, o, rfl, hx, hsz, hd⟩ := hc.memop S.hC hl.ty _ _ hm
        intro σ s σ' a c hh hf he hK
        obtain ⟨e1, e2⟩ := place_at S.hC l _ hl.ty hl.wf hl.conv hx (S.sok hh) hf.1 he
        subst e2
        have hav := hf.2.avail he
        refine here_calc hh (objLoad_calc t0 a (hh.obj hav.1) (ity t) (conv t (f (M.int t0 a))) (O.at_ x o) (ity_wf _)
          (by rw [cty_ity]; exact conv_range _ _) (by rw [← bytes_size, hsz]; exact Nat.le_refl _) (by rw [← bytes_size]; exact hd _ hav.2) (by rw [ea_obj S hh.bp, e1])) c
      · obtain ⟨rfl, rfl, hid⟩ := h.bool S.hC hl.ty _ _ _ hb
        intro σ s σ' a c hh' hf he hK
        have hav := hf.2.avail he
        refine (hV F (by omega) l _ hl (by omega) σ s σ' a c hh' hf he hK).imp fun s' _ q => ⟨q.1, ?_⟩
        have hid' : conv t (f (M.int .bool a)) = M.int .bool a := by
          have := (hc.bool S.hC hl.ty E.loc E.stk (run C P E O F .expr) (g := run C P E O F .expr (buildL C P l)) hb).2.2 _ hav.2
          exact this
        show Reps (ity t) (conv t (f (M.int .bool a))) _
        rw [hid']
        exact Reps.of_eq _ _ (q.2.2 rfl)
    · rw [e]
      intro σ s σ' a c hh' hf he hK
      have hav := hf.2.avail he
      have e2 : exprPlainA C P E.loc E.stk (run C P E O F .expr) (run C P E O F .addr) (.cast (.int t) n) =
          (run C P E O F .expr n ;; inss (castIns (ity u) (ity t))) := by
        show (run C P E O F .expr n ;; inss (castIns (rowTy n.ty) (rowTy (.int t)))) = _
        rw [h.ty S.hC hl.ty]; rfl
      rw [e2] at hK ⊢
      refine seq_calc (ih F (fun f' h' => hV f' (by omega)) (by omega) σ s σ' a c hh' hf he (seq_st1 hK)) fun s1 h1 q => ?_
      have := cast_calc (E := E) (ity u) (ity t) (f (M.int t0 a)) s1 (ity_wf _) (ity_wf _) htk (by rw [cty_ity]; exact h.range hav.2) q
      rw [cty_ity] at this
      exact this

/-- codegen.c:1627, for integer expressions. -/
theorem int_gives (S : Setup C P E Pg M O) (f : Nat) (e : Expr) (t : CTy) (hw : e.Wf) (hu : Usable E C.opt [e]) :
    Gives E Pg M (run C P E O (f + 1) .expr (.int t (build C.hs C.opt P.ints e))) (ceval P.ints e) (fun _ => True)
      (fun v x => Reps (ity (e.ty P.ints)) v x) := by
  intro σ s σ' v c h _ he hK
  have er : run C P E O (f + 1) .expr (.int t (build C.hs C.opt P.ints e)) = compileExpr C.hs C.opt E.Γ E.loc E.stk e := by
    unfold run; rw [genA, S.hΓ]; rfl
  rw [er] at hK ⊢
  have hu := hu e (by simp)
  rw [← S.hΓ] at he ⊢
  have hr : Ready E C.opt e σ s := ⟨hw, hu.1, hu.2, h.sok, h.bp, h.rel⟩
  have hσ' : StoreOk E.Γ σ' := by
    have := sokI C.hs M (.expr e) σ σ' v hw (S.sok h) (by rw [IE.eval, ← S.hΓ]; exact he)
    rw [S.hΓ]; exact this
  exact (compileExpr_ok S.hok S.hu C.hs e σ σ' s v c hr he hK).imp fun s' hE q => ⟨h.step hE hK hσ' q.1, q.2⟩

theorem reps8 {t : CTy} (h : t.bytes = 8) {v : Int} {x : Word} (hr : Reps (ity t) v x) : x = BitVec.ofInt 64 v := by
  have := hr.low
  rw [← bytes_size, h] at this
  exact this.eq8

/-- The size of an element, as an operand. -/
theorem num_gives (S : Setup C P E Pg M O) (f : Nat) (t : CTy) (ht : t.bytes = 8) (size : Word) {σ : Store} {s : St} (c : Nat) (h : Here E M σ s)
    (hK : (run C P E O (f + 1) .expr (castA C P (.int .long (.num ty_long size)) (.int t)) c).1.st ≤ E.K) :
    Does E Pg (run C P E O (f + 1) .expr (castA C P (.int .long (.num ty_long size)) (.int t)) c).1 s fun s' => Here E M σ s' ∧ s'.r .ax = size := by
  have h1 := size.le_toInt
  have h2 := size.toInt_lt
  have e : castA C P (.int .long (.num ty_long size)) (.int t) = .int t (build C.hs C.opt P.ints (.cast t (.num .long size.toInt))) := by
    show ANode.int t (newCast C.hs C.opt (.num ty_long size) (ity t)) = ANode.int t (newCast C.hs C.opt (.num ty_long (BitVec.ofInt 64 size.toInt)) (ity t))
    rw [BitVec.ofInt_toInt]
  rw [e] at hK ⊢
  refine (int_gives S f (.cast t (.num .long size.toInt)) t ⟨show (-(2 ^ 63) : Int) ≤ _ by omega, show _ ≤ (2 ^ 63 - 1 : Int) by omega⟩ ?_ σ s σ _ c h trivial rfl hK).imp
    fun s' _ q => ⟨q.1, ?_⟩
  · intro e he
    simp only [List.mem_singleton] at he
    subst he
    exact ⟨fun x hx => (nomatch hx), fun _ => trivial⟩
  · have := reps8 ht q.2
    rw [this, ofInt_conv64 _ _ ht, BitVec.ofInt_toInt]

/-- codegen.c:2003-2025, 2608-2672 on indices. -/
theorem stepIdx (S : Setup C P E Pg M O) (f : Nat) (hV : ∀ f' ≤ f, GVal C P E Pg M O f') : GIdx C P E Pg M O (f + 1) := by
  intro i t size hi hh
  cases i with
  | expr e =>
    have hb : scale C P (buildI C P (.expr e)) size =
        .int (CTy.common (e.ty P.ints).promote .long) (build C.hs C.opt P.ints (.bin (.ar .mul) e (.num .long (BitVec.ofNat 64 size).toInt))) := by
      show ANode.int _ (mkBin C.hs C.opt .mul _ (.num ty_long (BitVec.ofNat 64 size))) = ANode.int _ (mkBin C.hs C.opt .mul _ (.num ty_long (BitVec.ofInt 64 (BitVec.ofNat 64 size).toInt)))
      rw [BitVec.ofInt_toInt]
    rw [hb]
    have h1 := (BitVec.ofNat 64 size).le_toInt
    have h2 := (BitVec.ofNat 64 size).toInt_lt
    have hw' : Expr.Wf (.bin (.ar .mul) e (.num .long (BitVec.ofNat 64 size).toInt)) :=
      ⟨hi.wf, show (-(2 ^ 63) : Int) ≤ _ by omega, show _ ≤ (2 ^ 63 - 1 : Int) by omega⟩
    have hu : Usable E C.opt [Expr.bin (.ar .mul) e (.num .long (BitVec.ofNat 64 size).toInt)] := by
      intro e' he'
      simp only [List.mem_singleton] at he'
      subst he'
      have := hi.usable e (by simp [IE.exprs])
      refine ⟨fun x hx => this.1 x ?_, fun h => ⟨this.2 h, trivial, fun x _ h => nomatch h⟩⟩
      rcases List.mem_append.1 hx with h | h
      · exact h
      · cases h
    have g := int_gives (P := P) (O := O) S f _ (CTy.common (e.ty P.ints).promote .long) hw' hu
    intro σ s σ' v c h hf he hK
    have he : ceval P.ints e σ = .ok (v, σ') := he
    have hc : ceval P.ints (.bin (.ar .mul) e (.num .long (BitVec.ofNat 64 size).toInt)) σ =
        .ok (CTy.conv (CTy.common (e.ty P.ints).promote CTy.long)
          (CTy.conv (CTy.common (e.ty P.ints).promote CTy.long) v *
           CTy.conv (CTy.common (e.ty P.ints).promote CTy.long) (BitVec.ofNat 64 size).toInt), σ') := by
      show (do
        let (v, σ) ← ceval P.ints e σ
        let (w, σ) ← ceval P.ints (.num .long (BitVec.ofNat 64 size).toInt) σ
        let r ← binop (.ar .mul) (e.ty P.ints) .long v w
        Res.ok (r, σ)) = _
      rw [he]
      rfl
    refine (g σ s σ' _ c h trivial hc hK).imp fun s' _ q => ⟨q.1, ?_⟩
    have := reps8 (common_long _) q.2
    show s'.r .ax = BitVec.ofInt 64 (v * size)
    rw [this, ofInt_conv64 _ _ (common_long _), BitVec.ofInt_mul, BitVec.ofInt_mul, ofInt_conv64 _ _ (common_long _),
      ofInt_conv64 _ _ (common_long _), BitVec.ofInt_toInt, BitVec.ofInt_natCast]
  | obj l =>
    have hty : ∃ t0, l.ty P = some (.int t0) := by
      have := hi.ty
      unfold IE.ty at this
      split at this
      · exact ⟨_, by assumption⟩
      · cases this
    obtain ⟨t0, hty⟩ := hty
    have hl : LOk C P E l (.int t0) := ⟨hty, hi.wf, hi.conv, hi.usable⟩
    -- the promoted object
    obtain ⟨t1, f1, o1, hf1⟩ : ∃ t1 f1, OC C P l t0 (promoteA C P (buildL C P l)) t1 f1 ∧ ∀ v, InRange t0 v → f1 v = v := by
      unfold promoteA
      split
      · rename_i hsz
        rw [buildL_ty C P S.hC l _ hty] at hsz
        have hsz : t0.bytes < 4 := hsz
        obtain ⟨g, h1, h2⟩ := (OC.base (C := C) (P := P) (l := l) (t0 := t0)).castA S.hC hty hi.conv .int (by decide)
        refine ⟨_, g, h1, fun v hv => ?_⟩
        rw [h2 v hv]
        apply conv_id
        unfold InRange at hv ⊢
        have h3 : CTy.minVal .int ≤ CTy.minVal t0 := by revert hsz; cases t0 <;> decide
        have h4 : CTy.maxVal t0 ≤ CTy.maxVal .int := by revert hsz; cases t0 <;> decide
        exact ⟨Int.le_trans h3 hv.1, Int.le_trans hv.2 h4⟩
      · exact ⟨t0, id, .base, fun v _ => rfl⟩
    have h8 := common_long' t1
    have hnb : CTy.common t1 .long ≠ .bool := by intro e; rw [e] at h8; cases h8
    obtain ⟨f2, o2, hf2⟩ := o1.castA S.hC hty hi.conv (CTy.common t1 .long) hnb
    have hb : scale C P (buildI C P (.obj l)) size = .mul (.int (CTy.common t1 .long)) (castA C P (promoteA C P (buildL C P l)) (.int (CTy.common t1 .long)))
        (castA C P (.int .long (.num ty_long (BitVec.ofNat 64 size))) (.int (CTy.common t1 .long))) := by
      show scale C P (buildL C P l) size = _
      unfold scale
      split
      · rename_i e
        exact absurd e ((buildL_isPlace S.hC l _ hty).ne_int _ _)
      · dsimp only
        rw [o1.ty S.hC hty]
    have nc := num_cast8 C P (CTy.common t1 .long) h8 (BitVec.ofNat 64 size)
    have ng := fun f {σ s} c => num_gives (P := P) (O := O) S f (CTy.common t1 .long) h8 (BitVec.ofNat 64 size) (σ := σ) (s := s) c
    have hni : 1 ≤ height (castA C P (.int .long (.num ty_long (BitVec.ofNat 64 size))) (.int (CTy.common t1 .long))) := height_pos _
    have hoi := height_pos (castA C P (promoteA C P (buildL C P l)) (.int (CTy.common t1 .long)))
    rw [hb] at hh ⊢
    generalize castA C P (.int .long (.num ty_long (BitVec.ofNat 64 size))) (.int (CTy.common t1 .long)) = B at *
    generalize castA C P (promoteA C P (buildL C P l)) (.int (CTy.common t1 .long)) = A at *
    rw [height] at hh
    have gA := stepOC S hl o2 f hV (by omega)
    have hkA := o2.constOf S.hC hty hi.conv
    have hkB : constOf C P B = some (BitVec.ofNat 64 size) := by unfold Addr.constOf; rw [nc]; rfl
    have split : ∀ (σ σ' : Store) (v : Int), (IE.obj l).Fine P M E σ → (IE.obj l).eval P M σ = .ok (v, σ') →
        ∃ a, l.eval P M σ = .ok (a, σ') ∧ (l.Fine P M E σ ∧ Acc P M E l (.int t0) σ) ∧ v = M.int t0 a ∧ BitVec.ofInt 64 (f2 v) = BitVec.ofInt 64 v := by
      intro σ σ' v hf he
      rw [IE.eval] at he
      obtain ⟨⟨a, σ1⟩, e1, e2⟩ := res_bind he
      rw [hty] at e2
      dsimp only at e2
      injection e2 with e2; injection e2 with e2 e3
      subst e3
      have hacc : Acc P M E l (.int t0) σ := hf.2 t0 hty
      have hr := (hacc.avail e1).2
      refine ⟨a, e1, ⟨hf.1, hacc⟩, e2.symm, ?_⟩
      rw [← e2, hf2 _ hr, hf1 _ hr, ofInt_conv64 _ _ h8]
    obtain ⟨f', rfl⟩ : ∃ k, f = k + 1 := ⟨f - 1, by omega⟩
    have hkM : constOf C P (.mul (.int (CTy.common t1 .long)) A B) = none := by
      unfold Addr.constOf
      rw [ev, o2.con S.hC hty hi.conv]
      rfl
    rcases genA_expr (C := C) (P := P) (E := E) (O := O) (f' + 1) (.mul (.int (CTy.common t1 .long)) A B) (by intro _ _ e; cases e) with ⟨_, g, hg, e⟩ | e
    · rw [e]
      have : g = (run C P E O (f' + 1) .expr A ;; inss (immArith .mul 8 (BitVec.ofNat 64 size))) := by
        unfold exprOptA at hg
        rw [hkM] at hg
        have e1 : loadOptA C P E.loc O.at_ (.mul (.int (CTy.common t1 .long)) A B) = none := rfl
        have e2 : memopA C P E.loc O.at_ (.mul (.int (CTy.common t1 .long)) A B) = none := rfl
        have e3 : boolOptA C E.loc E.stk (run C P E O (f' + 1) .expr) (.mul (.int (CTy.common t1 .long)) A B) = none := rfl
        have e4 : gpOptA C P E.loc O.at_ (run C P E O (f' + 1) .expr) (.mul (.int (CTy.common t1 .long)) A B) =
            some (run C P E O (f' + 1) .expr A ;; inss (immArith .mul 8 (BitVec.ofNat 64 size))) := by
          show arithA C P E.loc O.at_ (run C P E O (f' + 1) .expr) (CTy.common t1 .long).bytes .mul A B = _
          rw [h8]
          unfold arithA
          have : arithA2 C P E.loc O.at_ (run C P E O (f' + 1) .expr) .mul .imul 8 A B 0 =
              some (run C P E O (f' + 1) .expr A ;; inss (immArith .mul 8 (BitVec.ofNat 64 size))) := by
            show (constOf C P B).map _ = _
            rw [hkB]; rfl
          show ((arithA2 C P E.loc O.at_ (run C P E O (f' + 1) .expr) .mul .imul 8 A B 0).orElse _).orElse _ = _
          rw [this]; rfl
        rw [e1, e2, e3, e4] at hg
        simp only [show gpTy (ANode.mul (.int (CTy.common t1 .long)) A B).ty = true from rfl, if_true] at hg
        injection hg with hg
        exact hg.symm
      rw [this]
      intro σ s σ' v c h hf he hK
      obtain ⟨a, e1, e2, e3, e4⟩ := split σ σ' v hf he
      refine seq_calc (gA σ s σ' a c h e2 e1 (seq_st1 hK)) fun s1 h1 q => ?_
      refine (immMul_calc _ s1).imp fun s' _ r => ?_
      show s'.r .ax = BitVec.ofInt 64 (v * size)
      rw [r, reps8 h8 q, ← e3, e4, BitVec.ofInt_mul, BitVec.ofInt_natCast]
    · rw [e]
      intro σ s σ' v c h hf he hK
      obtain ⟨a, e1, e2, e3, e4⟩ := split σ σ' v hf he
      refine (binaryA_does S _ .mul (Or.inr (Or.inr rfl)) A B (by rw [o2.ty S.hC hty]; exact h8) c s (BitVec.ofInt 64 v) (BitVec.ofNat 64 size)
        (fun c hK => (gA σ s σ' a c h e2 e1 hK).imp fun s' _ q => ⟨q.1, by rw [reps8 h8 q.2, ← e3, e4]⟩)
        (fun c s1 h1 hK => ng f' c h1 hK) hK).imp fun s' _ q => ⟨q.1, ?_⟩
      show s'.r .ax = BitVec.ofInt 64 (v * size)
      rw [q.2, BitVec.ofInt_mul, BitVec.ofInt_natCast]; rfl
  | ofPtr _ _ => exact hi.conv.elim
  | plus _ _ => exact hi.conv.elim

end
end Slimcc.AGen
