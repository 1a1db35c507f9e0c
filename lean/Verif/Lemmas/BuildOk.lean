import Verif.Lemmas.Build
/-! Every expression is built into a tree with its meaning. -/
set_option autoImplicit false
namespace Slimcc
open Slimcc.Spec Slimcc.Spec.CTy Slimcc.Ty

section
variable (Γ : Nat → CTy)

theorem ceval_cast (t : CTy) (e : Expr) (σ : Store) :
    ceval Γ (.cast t e) σ = (ceval Γ e σ).bind fun p => .ok (conv t p.1, p.2) := rfl
theorem ceval_un (op : UnOp) (e : Expr) (σ : Store) :
    ceval Γ (.un op e) σ = (ceval Γ e σ).bind fun p => .ok (unop (e.ty Γ).promote op p.1, p.2) := rfl
theorem ceval_lnot (e : Expr) (σ : Store) :
    ceval Γ (.lnot e) σ = (ceval Γ e σ).bind fun p => .ok (truth (p.1 = 0), p.2) := rfl
theorem ceval_bin (op : BinOp) (a b : Expr) (σ : Store) :
    ceval Γ (.bin op a b) σ = (ceval Γ a σ).bind fun p => (ceval Γ b p.2).bind fun q =>
      (binop op (a.ty Γ) (b.ty Γ) p.1 q.1).bind fun r => .ok (r, q.2) := rfl
theorem ceval_cmp (op : CmpOp) (a b : Expr) (σ : Store) :
    ceval Γ (.cmp op a b) σ = (ceval Γ a σ).bind fun p => (ceval Γ b p.2).bind fun q =>
      .ok (cmpVal op (conv (CTy.common (a.ty Γ).promote (b.ty Γ).promote) p.1)
        (conv (CTy.common (a.ty Γ).promote (b.ty Γ).promote) q.1), q.2) := rfl
theorem ceval_land (a b : Expr) (σ : Store) :
    ceval Γ (.land a b) σ = (ceval Γ a σ).bind fun p =>
      if p.1 = 0 then .ok (0, p.2) else (ceval Γ b p.2).bind fun q => .ok (truth (q.1 ≠ 0), q.2) := rfl
theorem ceval_lor (a b : Expr) (σ : Store) :
    ceval Γ (.lor a b) σ = (ceval Γ a σ).bind fun p =>
      if p.1 ≠ 0 then .ok (1, p.2) else (ceval Γ b p.2).bind fun q => .ok (truth (q.1 ≠ 0), q.2) := rfl
theorem ceval_cond (c a b : Expr) (σ : Store) :
    ceval Γ (.cond c a b) σ = (ceval Γ c σ).bind fun p =>
      if p.1 ≠ 0 then (ceval Γ a p.2).bind fun q => .ok (conv (CTy.common (a.ty Γ).promote (b.ty Γ).promote) q.1, q.2)
      else (ceval Γ b p.2).bind fun q => .ok (conv (CTy.common (a.ty Γ).promote (b.ty Γ).promote) q.1, q.2) := rfl
theorem ceval_comma (a b : Expr) (σ : Store) :
    ceval Γ (.comma a b) σ = (ceval Γ a σ).bind fun p => ceval Γ b p.2 := rfl
theorem ceval_assign (x : Nat) (e : Expr) (σ : Store) :
    ceval Γ (.assign x e) σ = (ceval Γ e σ).bind fun p => .ok (conv (Γ x) p.1, p.2.set x (conv (Γ x) p.1)) := rfl
theorem ceval_opAssign (op : BinOp) (x : Nat) (e : Expr) (σ : Store) :
    ceval Γ (.opAssign op x e) σ = (ceval Γ e σ).bind fun p => (binop op (Γ x) (e.ty Γ) (σ x) p.1).bind fun r =>
      .ok (conv (Γ x) r, p.2.set x (conv (Γ x) r)) := rfl
theorem ceval_incr (pre up : Bool) (x : Nat) (σ : Store) :
    ceval Γ (.incr pre up x) σ = (binop (.ar (if up then .add else .sub)) (Γ x) .int (σ x) 1).bind fun r =>
      .ok (if pre then conv (Γ x) r else σ x, σ.set x (conv (Γ x) r)) := rfl
end

section
variable {Γ : Nat → CTy} (hs : HostShift) (opt : Bool)

theorem noNull_newCast (n : Node) (t : ITy) (h : NoNull n) : NoNull (newCast hs opt n t) := by
  unfold newCast
  repeat' split
  all_goals first
    | exact h
    | trivial
    | skip
  rename_i e hra
  obtain ⟨t2, rfl, _⟩ := redundantArg_some n e t hra
  exact h

theorem noNull_intPromo (n : Node) (h : NoNull n) : NoNull (intPromo hs opt n) := by
  unfold intPromo; split
  · exact noNull_newCast hs opt _ _ h
  · exact h

theorem noNull_condCast (n : Node) (h : NoNull n) : NoNull (condCast hs opt n) := by
  unfold condCast; split
  · exact h
  · exact noNull_newCast hs opt _ _ h

theorem noNull_usual (a b : Node) (ha : NoNull a) (hb : NoNull b) :
    NoNull (usualConv hs opt a b).1 ∧ NoNull (usualConv hs opt a b).2 :=
  ⟨noNull_newCast hs opt _ _ (noNull_intPromo hs opt _ ha), noNull_newCast hs opt _ _ (noNull_intPromo hs opt _ hb)⟩

theorem noNull_mkArith (k : AKind) (a b : Node) (ha : NoNull a) (hb : NoNull b) : NoNull (mkArith hs opt k a b) := by
  cases k
  · exact noNull_usual hs opt a b ha hb
  · exact ⟨noNull_intPromo hs opt _ ha, hb⟩

theorem noNull_build : ∀ e : Expr, NoNull (build hs opt Γ e)
  | .num _ _ => trivial
  | .var _ => trivial
  | .cast _ e => noNull_newCast hs opt _ _ (noNull_build e)
  | .un _ e => noNull_intPromo hs opt _ (noNull_build e)
  | .lnot e => noNull_condCast hs opt _ (noNull_build e)
  | .bin _ a b => noNull_mkArith hs opt _ _ _ (noNull_build a) (noNull_build b)
  | .cmp _ a b => noNull_usual hs opt _ _ (noNull_build a) (noNull_build b)
  | .land a b => ⟨noNull_condCast hs opt _ (noNull_build a), noNull_condCast hs opt _ (noNull_build b)⟩
  | .lor a b => ⟨noNull_condCast hs opt _ (noNull_build a), noNull_condCast hs opt _ (noNull_build b)⟩
  | .cond c a b => ⟨noNull_condCast hs opt _ (noNull_build c), noNull_usual hs opt _ _ (noNull_build a) (noNull_build b)⟩
  | .comma a b => ⟨noNull_build a, noNull_build b⟩
  | .assign _ e => noNull_newCast hs opt _ _ (noNull_build e)
  | .opAssign _ _ e => noNull_build e
  | .incr true _ _ => trivial
  | .incr false up x => by
    simp only [build, newIncDec]
    split
    · exact noNull_newCast hs opt _ _ (noNull_mkArith hs opt (.ar .add) _ _ trivial trivial)
    · trivial

variable {nt : ITy} {acc : Int} (hacc : InRange (cty nt) acc)

theorem num_impl (t : ITy) (v : Int) (hw : t.wf = true) (h : InRange (cty t) v) :
    Impl Γ nt acc (.num t (BitVec.ofInt 64 v)) t (fun σ => .ok (v, σ)) := by
  refine ⟨⟨hw, by rw [nval_ofInt t v hw h]; exact h⟩, rfl, fun σ _ => Or.inr ?_⟩
  simp only [neval, nval_ofInt t v hw h]

/-- `x op= r` for an operand of known meaning. -/
theorem arithAssign_impl (k : AKind) (x : Nat) {r : Node} {tr : ITy} {g : Store → Res (Int × Store)}
    (hr : Impl Γ nt acc r tr g) (hn : NoNull r) :
    Impl Γ nt acc (.arithAssign k (ity (Γ x)) x r) (ity (Γ x)) (fun σ => (g σ).bind fun p =>
      (nbinop k (ity (Γ x)) tr (σ x) p.1).bind fun w => .ok (conv (Γ x) w, p.2.set x (conv (Γ x) w))) := by
  refine ⟨⟨rfl, hn, hr.wf⟩, rfl, fun σ hσ => ?_⟩
  simp only [neval]
  refine Refines.bind (hr.ref σ hσ) fun p _ => ?_
  rw [hr.ty, cty_ity]
  exact Refines.rfl' _

/-- Adding to a value and taking the same amount off gives the value back after conversion. -/
theorem inc_undo (t : ITy) (hw : t.wf = true) (hb : t.kind ≠ .bool) (a d : Int) (hd : d = 1 ∨ d = -1) (ha : InRange (cty t) a) :
    ∃ w, nbinop (.ar .add) t ty_int a d = .ok w ∧
      ∃ w', nbinop (.ar .add) t ty_int (conv (cty t) w) (-d) = .ok w' ∧ conv (cty t) w' = a := by
  have hc := commonTy_ok t ty_int hw rfl
  simp only [nbinop, binop, arith, ← hc.2.1]
  refine ⟨_, rfl, _, rfl, ?_⟩
  have hcb : cty (commonTy t ty_int) ≠ .bool := fun e => big_ne_bool _ hc.2.2 ((cty_bool _).1 e)
  have htb : cty t ≠ .bool := fun e => hb ((cty_bool _).1 e)
  have hwid : (cty t).width ≤ (cty (commonTy t ty_int)).width := by
    have key : ∀ t ∈ allTys, (cty t).width ≤ (cty (commonTy t ty_int)).width := by decide +kernel
    exact key t (mem_allTys t hw)
  -- everything is congruent modulo 2^width
  have c1 : ∀ z, conv (cty t) (conv (cty (commonTy t ty_int)) z) = conv (cty t) z :=
    fun z => conv_conv _ _ z htb hcb hwid
  have dv : ∀ (T : CTy) (z : Int), T ≠ .bool → (2 : Int) ^ T.width ∣ conv T z - z :=
    fun T z h => Int.dvd_of_emod_eq_zero (conv_congr T z h)
  have dvc : ∀ z, (2 : Int) ^ (cty t).width ∣ conv (cty (commonTy t ty_int)) z - z :=
    fun z => Int.dvd_trans (pow_dvd hwid) (dv _ z hcb)
  rw [c1]
  symm
  apply conv_unique _ _ _ htb ha
  apply Int.emod_eq_zero_of_dvd
  have e1 := dvc a
  have e2 := dvc d
  have e3 := dvc (-d)
  have e4 := dvc (conv (cty (commonTy t ty_int)) a + conv (cty (commonTy t ty_int)) d)
  have e5 := dv (cty t) (conv (cty (commonTy t ty_int)) (conv (cty (commonTy t ty_int)) a + conv (cty (commonTy t ty_int)) d)) htb
  have e6 := dvc (conv (cty t) (conv (cty (commonTy t ty_int)) (conv (cty (commonTy t ty_int)) a + conv (cty (commonTy t ty_int)) d)))
  have s := Int.dvd_add (Int.dvd_add (Int.dvd_add e1 e2) (Int.dvd_add e3 e4)) (Int.dvd_add e5 e6)
  have := (Int.dvd_neg).2 s
  refine Int.dvd_trans this ⟨1, ?_⟩
  omega

include hacc in
/-- Trees built by the compiler compute the C meaning of the expression. -/
theorem build_impl : ∀ e : Expr, e.Wf → Impl Γ nt acc (build hs opt Γ e) (ity (e.ty Γ)) (ceval Γ e)
  | .num t v, h => num_impl (ity t) v (ity_wf t) (by rw [cty_ity]; exact h)
  | .var x, _ => ⟨rfl, rfl, fun σ _ => Or.inr rfl⟩
  | .cast t e, h => by
    have i := newCast_impl hs opt hacc (build_impl e h) (ity t) (ity_wf t)
    refine ⟨i.wf, i.ty, fun σ hσ => ?_⟩
    have := i.ref σ hσ
    simp only [convRes, cty_ity] at this
    exact this
  | .un op e, h => by
    have i := intPromo_impl hs opt hacc (build_impl e h)
    have hp := promoTy_ok (ity (e.ty Γ)) (ity_wf _)
    rw [cty_ity] at hp
    have hty : promoTy (ity (e.ty Γ)) = ity (e.ty Γ).promote := by rw [← hp.2.1, ity_cty _ hp.1]
    simp only [build]
    refine ⟨⟨rfl, by rw [i.ty]; exact hp.2.2.1, i.wf⟩, by rw [Node.ty, i.ty, hty]; rfl, fun σ hσ => ?_⟩
    simp only [neval, i.ty, hp.2.1]
    rw [ceval_un]
    exact Refines.bind (i.ref σ hσ) fun p _ => Refines.rfl' _
  | .lnot e, h => by
    obtain ⟨t', f', i, hb, hz⟩ := condCast_impl hs opt hacc (build_impl e h)
    simp only [build]
    refine ⟨⟨hb, i.wf⟩, rfl, fun σ hσ => ?_⟩
    rw [ceval_lnot]
    have e1 := cond_zero (hz σ) (fun P _ σ' => Res.ok (truth P, σ'))
    simp only [neval]
    rw [← e1]
    exact Refines.bind (i.ref σ hσ) fun p _ => Refines.rfl' _
  | .bin op a b, h => by
    have ia := build_impl a h.1
    have ib := build_impl b h.2
    have i := mkArith_impl hs opt hacc (akind op (ity (a.ty Γ))) ia ib
    have hty := akindTy_akind op (ity (a.ty Γ)) (ity (b.ty Γ)) (ity_wf _) (ity_wf _)
    rw [cty_ity, cty_ity] at hty
    simp only [build, ia.ty]
    refine ⟨i.wf, ?_, fun σ hσ => ?_⟩
    · rw [i.ty]; simp only [Expr.ty]; rw [← hty, ity_cty _ i.tywf]
    · refine Refines.trans ?_ (i.ref σ hσ)
      rw [ceval_bin]
      unfold binRes
      refine Refines.bind (Refines.rfl' _) fun p hp => ?_
      refine Refines.bind (Refines.rfl' _) fun q hq => ?_
      have hr := (ia.range hacc σ hσ (v := p.1) (σ' := p.2) hp).1
      rw [binop_akind op _ _ _ _ (ity_wf _) hr, cty_ity, cty_ity]
      exact Refines.rfl' _
  | .cmp op a b, h => by
    have ia := build_impl a h.1
    have ib := build_impl b h.2
    obtain ⟨i1, i2⟩ := usualConv_impl hs opt hacc ia ib
    have hc := commonTy_ok (ity (a.ty Γ)) (ity (b.ty Γ)) (ity_wf _) (ity_wf _)
    rw [cty_ity, cty_ity] at hc
    simp only [build]
    refine ⟨⟨by rw [i1.ty, i2.ty], by rw [i1.ty]; exact hc.2.2, i1.wf, i2.wf⟩, rfl, fun σ hσ => ?_⟩
    simp only [neval]
    have e : ceval Γ (.cmp op a b) σ = (convRes (commonTy (ity (a.ty Γ)) (ity (b.ty Γ))) (ceval Γ a) σ).bind fun p =>
        (convRes (commonTy (ity (a.ty Γ)) (ity (b.ty Γ))) (ceval Γ b) p.2).bind fun q => .ok (cmpVal op p.1 q.1, q.2) := by
      rw [ceval_cmp]
      simp only [convRes, bind_bind, ok_bind, hc.2.1]
    rw [e]
    refine Refines.bind (i1.ref σ hσ) fun p hp => ?_
    exact Refines.bind (i2.ref p.2 (i1.range hacc σ hσ (v := p.1) (σ' := p.2) hp).2) fun q _ => Refines.rfl' _
  | .land a b, h => by
    have ia := build_impl a h.1
    have ib := build_impl b h.2
    obtain ⟨ta, fa, i1, b1, z1⟩ := condCast_impl hs opt hacc ia
    obtain ⟨tb, fb, i2, b2, z2⟩ := condCast_impl hs opt hacc ib
    simp only [build]
    refine ⟨⟨b1, b2, i1.wf, i2.wf⟩, rfl, fun σ hσ => ?_⟩
    simp only [neval]
    have e2 : ∀ σ, ((ceval Γ b σ).bind fun q => Res.ok (truth (q.1 ≠ 0), q.2)) = (fb σ).bind fun q => Res.ok (truth (q.1 ≠ 0), q.2) := by
      intro σ
      have := cond_zero (z2 σ) (fun P _ σ' => Res.ok ((if ¬ P then 1 else 0 : Int), σ'))
      simp only [truth]
      exact this.symm
    have e1 : ceval Γ (.land a b) σ = (fa σ).bind fun p => if p.1 = 0 then .ok (0, p.2) else (fb p.2).bind fun q => .ok (truth (q.1 ≠ 0), q.2) := by
      rw [ceval_land]
      simp only [e2]
      exact (cond_zero (z1 σ) (fun P _ σ' => if P then Res.ok ((0 : Int), σ') else (fb σ').bind fun q => .ok (truth (q.1 ≠ 0), q.2))).symm
    rw [e1]
    refine Refines.bind (i1.ref σ hσ) fun p hp => ?_
    split
    · exact Refines.rfl' _
    · exact Refines.bind (i2.ref p.2 (i1.range hacc σ hσ (v := p.1) (σ' := p.2) hp).2) fun q _ => Refines.rfl' _
  | .lor a b, h => by
    have ia := build_impl a h.1
    have ib := build_impl b h.2
    obtain ⟨ta, fa, i1, b1, z1⟩ := condCast_impl hs opt hacc ia
    obtain ⟨tb, fb, i2, b2, z2⟩ := condCast_impl hs opt hacc ib
    simp only [build]
    refine ⟨⟨b1, b2, i1.wf, i2.wf⟩, rfl, fun σ hσ => ?_⟩
    simp only [neval]
    have e2 : ∀ σ, ((ceval Γ b σ).bind fun q => Res.ok (truth (q.1 ≠ 0), q.2)) = (fb σ).bind fun q => Res.ok (truth (q.1 ≠ 0), q.2) := by
      intro σ
      have := cond_zero (z2 σ) (fun P _ σ' => Res.ok ((if ¬ P then 1 else 0 : Int), σ'))
      simp only [truth]
      exact this.symm
    have e1 : ceval Γ (.lor a b) σ = (fa σ).bind fun p => if p.1 ≠ 0 then .ok (1, p.2) else (fb p.2).bind fun q => .ok (truth (q.1 ≠ 0), q.2) := by
      rw [ceval_lor]
      simp only [e2]
      exact (cond_zero (z1 σ) (fun P _ σ' => if ¬ P then Res.ok ((1 : Int), σ') else (fb σ').bind fun q => .ok (truth (q.1 ≠ 0), q.2))).symm
    rw [e1]
    refine Refines.bind (i1.ref σ hσ) fun p hp => ?_
    split
    · exact Refines.rfl' _
    · exact Refines.bind (i2.ref p.2 (i1.range hacc σ hσ (v := p.1) (σ' := p.2) hp).2) fun q _ => Refines.rfl' _
  | .cond c a b, h => by
    have ic := build_impl c h.1
    have ia := build_impl a h.2.1
    have ib := build_impl b h.2.2
    obtain ⟨tc, fc, i0, b0, z0⟩ := condCast_impl hs opt hacc ic
    obtain ⟨i1, i2⟩ := usualConv_impl hs opt hacc ia ib
    have hc := commonTy_ok (ity (a.ty Γ)) (ity (b.ty Γ)) (ity_wf _) (ity_wf _)
    rw [cty_ity, cty_ity] at hc
    simp only [build]
    refine ⟨⟨b0, rfl, by rw [i1.ty, i2.ty], by rw [i1.ty]; exact hc.2.2, i0.wf, i1.wf, i2.wf⟩, ?_, fun σ hσ => ?_⟩
    · simp only [Node.ty, Expr.ty, i1.ty]; rw [← hc.2.1, ity_cty _ hc.1]
    · simp only [neval]
      have e1 : ceval Γ (.cond c a b) σ = (fc σ).bind fun p => if p.1 ≠ 0 then convRes (commonTy (ity (a.ty Γ)) (ity (b.ty Γ))) (ceval Γ a) p.2
          else convRes (commonTy (ity (a.ty Γ)) (ity (b.ty Γ))) (ceval Γ b) p.2 := by
        rw [ceval_cond]
        simp only [convRes, hc.2.1]
        exact (cond_zero (z0 σ) (fun P _ σ' => if ¬ P then
          (ceval Γ a σ').bind fun q => Res.ok (conv (CTy.common (a.ty Γ).promote (b.ty Γ).promote) q.1, q.2)
          else (ceval Γ b σ').bind fun q => Res.ok (conv (CTy.common (a.ty Γ).promote (b.ty Γ).promote) q.1, q.2))).symm
      rw [e1]
      refine Refines.bind (i0.ref σ hσ) fun p hp => ?_
      have hσ1 := (i0.range hacc σ hσ (v := p.1) (σ' := p.2) hp).2
      split
      · exact i1.ref p.2 hσ1
      · exact i2.ref p.2 hσ1
  | .comma a b, h => by
    have ia := build_impl a h.1
    have ib := build_impl b h.2
    simp only [build]
    refine ⟨⟨ia.wf, ib.wf⟩, ib.ty, fun σ hσ => ?_⟩
    rw [ceval_comma]
    simp only [neval]
    exact Refines.bind (ia.ref σ hσ) fun p hp => ib.ref p.2 (ia.range hacc σ hσ (v := p.1) (σ' := p.2) hp).2
  | .assign x e, h => by
    have i := newCast_impl hs opt hacc (build_impl e h) (ity (Γ x)) (ity_wf _)
    simp only [build]
    refine ⟨⟨rfl, i.ty, i.wf⟩, rfl, fun σ hσ => ?_⟩
    have e1 : ceval Γ (.assign x e) σ = (convRes (ity (Γ x)) (ceval Γ e) σ).bind fun p => .ok (p.1, p.2.set x p.1) := by
      rw [ceval_assign]
      simp only [convRes, bind_bind, ok_bind, cty_ity]
    rw [e1]
    simp only [neval]
    exact Refines.bind (i.ref σ hσ) fun p _ => Refines.rfl' _
  | .opAssign op x e, h => by
    have ie := build_impl e h
    have i := arithAssign_impl (akind op (ity (Γ x))) x ie (noNull_build hs opt e)
    simp only [build]
    refine ⟨i.wf, i.ty, fun σ hσ => ?_⟩
    refine Refines.trans ?_ (i.ref σ hσ)
    rw [ceval_opAssign]
    refine Refines.bind (Refines.rfl' _) fun p hp => ?_
    rw [binop_akind op _ _ _ _ (ity_wf _) (by rw [cty_ity]; exact hσ x), cty_ity, cty_ity]
    exact Refines.rfl' _
  | .incr true up x, h => by
    have i := arithAssign_impl (nt := nt) (acc := acc) (.ar (if up then .add else .sub)) x (Γ := Γ)
      (num_impl ty_int 1 rfl (by decide)) trivial
    refine ⟨i.wf, i.ty, fun σ hσ => ?_⟩
    refine Refines.trans ?_ (i.ref σ hσ)
    rw [ceval_incr]
    simp only [ok_bind, nbinop, cty_ity, if_true]
    exact Refines.rfl' _
  | .incr false up x, h => by
    have hd : (if up then (1 : Int) else -1) = 1 ∨ (if up then (1 : Int) else -1) = -1 := by cases up <;> simp
    have key : ∀ σ : Store, binop (.ar (if up then .add else .sub)) (Γ x) .int (σ x) 1 =
        nbinop (.ar .add) (ity (Γ x)) ty_int (σ x) (if up then 1 else -1) := by
      intro σ
      have hc := commonTy_ok (ity (Γ x)) ty_int (ity_wf _) rfl
      rw [cty_ity, show cty ty_int = .int from rfl] at hc
      have hcb : cty (commonTy (ity (Γ x)) ty_int) ≠ .bool := fun e => big_ne_bool _ hc.2.2 ((cty_bool _).1 e)
      cases up
      · simp only [nbinop, binop, cty_ity, show cty ty_int = .int from rfl, ← hc.2.1, Bool.false_eq_true, if_false, arith]
        congr 1
        apply conv_eq_of_congr _ _ _ hcb
        have e1 := Int.dvd_of_emod_eq_zero (conv_congr (cty (commonTy (ity (Γ x)) ty_int)) 1 hcb)
        have e2 := Int.dvd_of_emod_eq_zero (conv_congr (cty (commonTy (ity (Γ x)) ty_int)) (-1) hcb)
        have := (Int.dvd_neg).2 (Int.dvd_add e1 e2)
        refine Int.dvd_trans this ⟨1, ?_⟩
        omega
      · simp only [nbinop, binop, cty_ity, show cty ty_int = .int from rfl, if_true]
    simp only [build, newIncDec]
    have in1 : Impl Γ nt acc (.num ty_int (BitVec.ofInt 64 (if up then 1 else -1))) ty_int (fun σ => .ok (if up then 1 else -1, σ)) :=
      num_impl ty_int _ rfl (by cases up <;> decide)
    have in2 : Impl Γ nt acc (.num ty_int (BitVec.ofInt 64 (-(if up then 1 else -1)))) ty_int (fun σ => .ok (-(if up then 1 else -1), σ)) :=
      num_impl ty_int _ rfl (by cases up <;> decide)
    split
    · rename_i hopt
      have hb : (ity (Γ x)).kind ≠ .bool := by
        simp only [Bool.and_eq_true, bne_iff_ne, ne_eq] at hopt; exact hopt.2
      have i1 := arithAssign_impl (.ar .add) x in1 trivial
      have i2 := mkArith_impl hs opt hacc (.ar .add) i1 in2
      have i3 := newCast_impl hs opt hacc i2 (ity (Γ x)) (ity_wf _)
      refine ⟨i3.wf, i3.ty, fun σ hσ => ?_⟩
      refine Refines.trans (Or.inr ?_) (i3.ref σ hσ)
      rw [ceval_incr, key]
      obtain ⟨w, hw, w', hw', hback⟩ := inc_undo (ity (Γ x)) (ity_wf _) hb (σ x) _ hd (by rw [cty_ity]; exact hσ x)
      rw [hw]
      simp only [convRes, binRes, ok_bind, hw]
      rw [cty_ity] at hw' hback
      simp only [hw', ok_bind, cty_ity, hback, Bool.false_eq_true, if_false]
    · refine ⟨⟨rfl, trivial, in1.wf⟩, rfl, fun σ hσ => ?_⟩
      rw [ceval_incr, key]
      simp only [neval, Node.ty, cty_ity]
      have hv : nval ty_int (BitVec.ofInt 64 (if up then 1 else -1)) = (if up then 1 else -1) := by
        cases up <;> decide
      rw [ok_bind, hv]
      exact Refines.rfl' _

end
end Slimcc
