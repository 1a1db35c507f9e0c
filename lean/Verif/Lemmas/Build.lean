import Verif.Lemmas.NodeSem
import Verif.Props.C16
/-! The trees built for expressions mean what the abstract machine says. -/
set_option autoImplicit false
namespace Slimcc
open Slimcc.Spec Slimcc.Spec.CTy Slimcc.Ty

/-- Undefined behaviour may become anything; everything else is kept. -/
def Refines {α : Type} (r r' : Res α) : Prop := r = .undef ∨ r = r'

theorem Refines.rfl' {α : Type} (r : Res α) : Refines r r := Or.inr rfl

theorem Refines.trans {α : Type} {a b c : Res α} (h : Refines a b) (h' : Refines b c) : Refines a c := by
  rcases h with h | h
  · exact Or.inl h
  · rw [h]; exact h'

theorem Refines.bind {α β : Type} {r r' : Res α} {f g : α → Res β} (h : Refines r r')
    (hf : ∀ a, r = .ok a → Refines (f a) (g a)) : Refines (r.bind f) (r'.bind g) := by
  rcases h with h | h
  · rw [h]; exact Or.inl rfl
  · subst h
    cases h : r with
    | ok a => exact hf a h
    | divZero => exact Or.inr rfl
    | undef => exact Or.inl rfl

theorem Refines.ok {α : Type} {r r' : Res α} {a : α} (h : Refines r r') (e : r = .ok a) : r' = .ok a := by
  rcases h with h | h
  · rw [h] at e; cases e
  · rw [← h, e]

/-- The tree `n` is well formed, of type `t`, and computes `f`. -/
structure Impl (Γ : Nat → CTy) (nt : ITy) (acc : Int) (n : Node) (t : ITy) (f : Store → Res (Int × Store)) : Prop where
  wf : WfNode Γ nt n
  ty : n.ty = t
  ref : ∀ σ, StoreOk Γ σ → Refines (f σ) (neval acc n σ)

section
variable {Γ : Nat → CTy} {nt : ITy} {acc : Int} (hs : HostShift) (opt : Bool) (hacc : InRange (cty nt) acc)

include hacc in
theorem Impl.range {n : Node} {t : ITy} {f : Store → Res (Int × Store)} (h : Impl Γ nt acc n t f) (σ : Store)
    (hσ : StoreOk Γ σ) {v : Int} {σ' : Store} (e : f σ = .ok (v, σ')) : InRange (cty t) v ∧ StoreOk Γ σ' := by
  have := neval_range hacc n σ h.wf hσ v σ' ((h.ref σ hσ).ok e)
  rwa [h.ty] at this

theorem Impl.tywf {n : Node} {t : ITy} {f : Store → Res (Int × Store)} (h : Impl Γ nt acc n t f) : t.wf = true := by
  have := wf_ty n h.wf; rwa [h.ty] at this

/-- Conversion of a result. -/
def convRes (t : ITy) (f : Store → Res (Int × Store)) (σ : Store) : Res (Int × Store) :=
  (f σ).bind fun p => .ok (conv (cty t) p.1, p.2)

theorem redundantArg_some (n e : Node) (t : ITy) (h : redundantArg n t = some e) :
    ∃ t2, n = .cast t2 e ∧ is_redundant_cast t t2 e.ty = true := by
  unfold redundantArg at h
  split at h
  · rename_i t2 e'
    split at h
    · rename_i hr; injection h with h; subst h; exact ⟨t2, rfl, hr⟩
    · cases h
  · cases h

include hacc in
theorem newCast_impl {n : Node} {t0 : ITy} {f : Store → Res (Int × Store)} (h : Impl Γ nt acc n t0 f) (t : ITy)
    (hw : t.wf = true) : Impl Γ nt acc (newCast hs opt n t) t (convRes t f) := by
  have hplain : Impl Γ nt acc (.cast t n) t (convRes t f) := by
    refine ⟨⟨hw, h.wf⟩, rfl, fun σ hσ => ?_⟩
    exact (h.ref σ hσ).bind fun p _ => Refines.rfl' _
  unfold newCast
  cases opt with
  | false => exact hplain
  | true =>
    simp only [if_true]
    have hag := evalNode_agrees hs hacc (.cast t n) (Γ := Γ)
    cases he : evalNode hs (.cast t n) with
    | ok x =>
      simp only []
      have hx : ∃ v, InRange (cty t) v ∧ x = BitVec.ofInt 64 v := by
        simp only [evalNode] at he
        cases h1 : evalNode hs n with
        | ok y =>
          rw [h1] at he; simp only [Outcome.bind_ok, Outcome.ok.injEq] at he
          obtain ⟨v, hv, e⟩ := evalCastTo_norm t y hw
          exact ⟨v, hv, by rw [← he, e]⟩
        | error => rw [h1] at he; cases he
        | ub => rw [h1] at he; cases he
      obtain ⟨v0, hv0, rfl⟩ := hx
      refine ⟨⟨hw, by rw [nval_ofInt t v0 hw hv0]; exact hv0⟩, rfl, fun σ hσ => ?_⟩
      refine (hplain.ref σ hσ).trans ?_
      have i := hag σ hplain.wf hσ
      rw [he] at i
      cases h2 : neval acc (.cast t n) σ with
      | ok p =>
        obtain ⟨v, σ'⟩ := p
        rw [h2] at i
        simp only [Agrees] at i
        rcases i with i | ⟨i, rfl⟩
        · cases i
        · injection i with i
          have hr := (neval_range hacc _ σ' hplain.wf hσ v σ' h2).1
          refine Or.inr ?_
          simp only [neval]
          rw [i, nval_ofInt t v hw hr]
      | divZero => rw [h2] at i; cases i
      | undef => exact Or.inl rfl
    | error =>
      simp only []
      by_cases hty : n.ty = t
      · rw [if_pos hty]
        refine ⟨h.wf, hty, fun σ hσ => ?_⟩
        have hr := h.ref σ hσ
        have hrg := fun v σ' => neval_range hacc n σ h.wf hσ v σ'
        rw [hty] at hrg
        unfold convRes
        cases hf : f σ with
        | ok p =>
          obtain ⟨v, σ'⟩ := p
          have e := hr.ok hf
          rw [e]
          simp only [Res.bind, conv_id _ _ (hrg v σ' e).1]
          exact Or.inr rfl
        | divZero => rw [hf] at hr; rcases hr with hr | hr; (· cases hr); rw [← hr]; exact Or.inr rfl
        | undef => exact Or.inl rfl
      · rw [if_neg hty]
        cases hra : redundantArg n t with
        | none => exact hplain
        | some e =>
          obtain ⟨t2, rfl, hred⟩ := redundantArg_some n e t hra
          simp only []
          refine ⟨⟨hw, h.wf.2⟩, rfl, fun σ hσ => (hplain.ref σ hσ).trans (Or.inr ?_)⟩
          simp only [neval]
          cases hne : neval acc e σ with
          | ok p =>
            obtain ⟨v, σ'⟩ := p
            have hr := (neval_range hacc e σ h.wf.2 hσ v σ' hne).1
            simp only [Res.bind, Props.C16_redundant_cast t t2 e.ty hw h.wf.1 (wf_ty e h.wf.2) v hr hred]
          | divZero => rfl
          | undef => rfl
    | ub =>
      exfalso
      -- the evaluator has no such outcome
      have : ∀ n : Node, evalNode hs n ≠ .ub := by
        intro n
        induction n with
        | num | null | var | assign | arithAssign | postIncDec => simp only [evalNode]; intro h; cases h
        | cast t e ih =>
          simp only [evalNode]; cases h : evalNode hs e <;> first | exact absurd h ih | (intro h; cases h)
        | un op t e ih =>
          cases op <;> simp only [evalNode] <;> first | exact ih | (cases h : evalNode hs e <;> first | exact absurd h ih | (intro h; cases h))
        | not e ih =>
          simp only [evalNode]; cases h : evalNode hs e <;> first | exact absurd h ih | (intro h; cases h)
        | bin op t a b iha ihb =>
          simp only [evalNode]
          cases h : evalNode hs a with
          | ub => exact absurd h iha
          | error => intro h; cases h
          | ok x =>
            cases h2 : evalNode hs b with
            | ub => exact absurd h2 ihb
            | error => intro h; cases h
            | ok y =>
              simp only [Outcome.bind_ok]
              cases op <;> simp only [evalBin] <;> repeat' split
              all_goals (intro h; cases h)
        | shift k t a b iha ihb =>
          simp only [evalNode]
          cases h : evalNode hs a with
          | ub => exact absurd h iha
          | error => intro h; cases h
          | ok x =>
            cases h2 : evalNode hs b with
            | ub => exact absurd h2 ihb
            | error => intro h; cases h
            | ok y => intro h; cases h
        | cmp op a b iha ihb =>
          simp only [evalNode]
          cases h : evalNode hs a with
          | ub => exact absurd h iha
          | error => intro h; cases h
          | ok x =>
            cases h2 : evalNode hs b with
            | ub => exact absurd h2 ihb
            | error => intro h; cases h
            | ok y => intro h; cases h
        | logand a b iha ihb | logor a b iha ihb =>
          simp only [evalNode]
          cases h : evalNode hs a with
          | ub => exact absurd h iha
          | error => intro h; cases h
          | ok x =>
            simp only [Outcome.bind_ok]
            split
            · intro h; cases h
            · cases h2 : evalNode hs b with
              | ub => exact absurd h2 ihb
              | error => intro h; cases h
              | ok y => intro h; cases h
        | cond t c a b ihc iha ihb =>
          simp only [evalNode]
          cases h : evalNode hs c with
          | ub => exact absurd h ihc
          | error => intro h; cases h
          | ok x =>
            simp only [Outcome.bind_ok]
            split
            · exact iha
            · exact ihb
        | comma a b iha ihb =>
          simp only [evalNode]
          split
          · exact ihb
          · cases h : evalNode hs a with
            | ub => exact absurd h iha
            | error => intro h; cases h
            | ok x => simp only [Outcome.bind_ok]; exact ihb
      exact this _ he

theorem convRes_id {t : ITy} {f : Store → Res (Int × Store)} {σ : Store}
    (h : ∀ v σ', f σ = .ok (v, σ') → conv (cty t) v = v) : convRes t f σ = f σ := by
  unfold convRes
  cases hf : f σ with
  | ok p => obtain ⟨v, σ'⟩ := p; simp only [Res.bind, h v σ' hf]
  | divZero => rfl
  | undef => rfl

theorem promoTy_ok (t : ITy) (hw : t.wf = true) : (promoTy t).wf = true ∧ cty (promoTy t) = (cty t).promote ∧
    4 ≤ (promoTy t).size ∧ (∀ v, InRange (cty t) v → InRange (cty (promoTy t)) v) := by
  have key : ∀ t ∈ allTys, (promoTy t).wf = true ∧ cty (promoTy t) = (cty t).promote ∧ 4 ≤ (promoTy t).size ∧
      (cty (promoTy t)).minVal ≤ (cty t).minVal ∧ (cty t).maxVal ≤ (cty (promoTy t)).maxVal := by decide
  have k := key t (mem_allTys t hw)
  refine ⟨k.1, k.2.1, k.2.2.1, fun v hv => ?_⟩
  exact ⟨Int.le_trans k.2.2.2.1 hv.1, Int.le_trans hv.2 k.2.2.2.2⟩

theorem promoTy_uns (t : ITy) (hw : t.wf = true) : (promoTy t).uns = true → t.uns = true := by
  have key : ∀ t ∈ allTys, (promoTy t).uns = true → t.uns = true := by decide
  exact key t (mem_allTys t hw)

include hacc in
theorem intPromo_impl {n : Node} {t : ITy} {f : Store → Res (Int × Store)} (h : Impl Γ nt acc n t f) :
    Impl Γ nt acc (intPromo hs opt n) (promoTy t) f := by
  unfold intPromo promoTy
  have ht := h.ty
  rw [ht]
  split
  · rename_i hlt
    have i := newCast_impl hs opt hacc h ty_int rfl
    refine ⟨i.wf, i.ty, fun σ hσ => ?_⟩
    have e := i.ref σ hσ
    rwa [convRes_id] at e
    intro v σ' hv
    have hr := (h.range hacc σ hσ hv).1
    have hp := (promoTy_ok t h.tywf).2.2.2 v hr
    unfold promoTy at hp
    rw [if_pos hlt] at hp
    exact conv_id _ _ hp
  · exact h

/-- The common type. -/
def commonTy (ta tb : ITy) : ITy := (common_promoted (promoTy ta) (promoTy tb)).getD (promoTy ta)

theorem commonTy_ok (ta tb : ITy) (ha : ta.wf = true) (hb : tb.wf = true) :
    (commonTy ta tb).wf = true ∧ cty (commonTy ta tb) = CTy.common (cty ta).promote (cty tb).promote ∧
    4 ≤ (commonTy ta tb).size := by
  have key : ∀ ta ∈ allTys, ∀ tb ∈ allTys, (commonTy ta tb).wf = true ∧
      cty (commonTy ta tb) = CTy.common (cty ta).promote (cty tb).promote ∧ 4 ≤ (commonTy ta tb).size := by decide +kernel
  exact key ta (mem_allTys ta ha) tb (mem_allTys tb hb)

include hacc in
theorem usualConv_impl {a b : Node} {ta tb : ITy} {f g : Store → Res (Int × Store)} (ha : Impl Γ nt acc a ta f)
    (hb : Impl Γ nt acc b tb g) :
    Impl Γ nt acc (usualConv hs opt a b).1 (commonTy ta tb) (convRes (commonTy ta tb) f) ∧
    Impl Γ nt acc (usualConv hs opt a b).2 (commonTy ta tb) (convRes (commonTy ta tb) g) := by
  have h1 := intPromo_impl hs opt hacc ha
  have h2 := intPromo_impl hs opt hacc hb
  have hw := (commonTy_ok ta tb ha.tywf hb.tywf).1
  unfold usualConv
  simp only [h1.ty, h2.ty]
  exact ⟨newCast_impl hs opt hacc h1 (commonTy ta tb) hw, newCast_impl hs opt hacc h2 (commonTy ta tb) hw⟩

theorem bind_bind {α β γ : Type} (r : Res α) (f : α → Res β) (g : β → Res γ) :
    (r.bind f).bind g = r.bind fun a => (f a).bind g := by
  cases r <;> rfl

theorem ok_bind {α β : Type} (a : α) (f : α → Res β) : (Res.ok a).bind f = f a := rfl

/-- Meaning of a binary node from the meanings of its operands. -/
def binRes (k : AKind) (ta tb : ITy) (f g : Store → Res (Int × Store)) (σ : Store) : Res (Int × Store) :=
  (f σ).bind fun p => (g p.2).bind fun q => (nbinop k ta tb p.1 q.1).bind fun r => .ok (r, q.2)

/-- Result type of a binary node. -/
def akindTy (k : AKind) (ta tb : ITy) : ITy :=
  match k with
  | .ar _ => commonTy ta tb
  | .sh _ => promoTy ta

include hacc in
theorem mkArith_impl (k : AKind) {a b : Node} {ta tb : ITy} {f g : Store → Res (Int × Store)} (ha : Impl Γ nt acc a ta f)
    (hb : Impl Γ nt acc b tb g) :
    Impl Γ nt acc (mkArith hs opt k a b) (akindTy k ta tb) (binRes k ta tb f g) := by
  have hc := commonTy_ok ta tb ha.tywf hb.tywf
  cases k with
  | ar op =>
    obtain ⟨h1, h2⟩ := usualConv_impl hs opt hacc ha hb
    simp only [mkArith, mkBin, akindTy]
    refine ⟨⟨rfl, by rw [h2.ty, h1.ty], by rw [h1.ty]; exact hc.2.2, h1.wf, h2.wf⟩, h1.ty, fun σ hσ => ?_⟩
    simp only [neval, binRes]
    have r1 := h1.ref σ hσ
    simp only [convRes] at r1
    have : ((f σ).bind fun p => (g p.2).bind fun q => (nbinop (.ar op) ta tb p.1 q.1).bind fun r => .ok (r, q.2)) =
        (((f σ).bind fun p => .ok (conv (cty (commonTy ta tb)) p.1, p.2)).bind fun p =>
          ((g p.2).bind fun q => .ok (conv (cty (commonTy ta tb)) q.1, q.2)).bind fun q =>
            (arith (cty (commonTy ta tb)) op p.1 q.1).bind fun r => .ok (r, q.2)) := by
      simp only [bind_bind, ok_bind, nbinop, binop, hc.2.1]
    rw [this]
    refine r1.bind fun p hp => ?_
    have hσ1 : StoreOk Γ p.2 := (h1.range hacc σ hσ (v := p.1) (σ' := p.2) hp).2
    refine Refines.bind (h2.ref p.2 hσ1) fun q _ => ?_
    rw [h1.ty]
    exact Refines.rfl' _
  | sh s =>
    have h1 := intPromo_impl hs opt hacc ha
    have hp := promoTy_ok ta ha.tywf
    simp only [mkArith, mkShift, akindTy]
    refine ⟨⟨rfl, by rw [h1.ty]; exact hp.2.2.1, h1.wf, hb.wf⟩, h1.ty, fun σ hσ => ?_⟩
    simp only [neval, binRes]
    refine Refines.bind (h1.ref σ hσ) fun p hp' => ?_
    have hσ1 : StoreOk Γ p.2 := (h1.range hacc σ hσ (v := p.1) (σ' := p.2) hp').2
    refine Refines.bind (hb.ref p.2 hσ1) fun q _ => ?_
    rw [h1.ty]
    exact Refines.rfl' _

/-- `>>` on the source operand is the shift of the node. -/
theorem binop_akind (op : BinOp) (ta tb : ITy) (a b : Int) (hw : ta.wf = true) (ha : InRange (cty ta) a) :
    nbinop (akind op ta) ta tb a b = binop op (cty ta) (cty tb) a b := by
  have hp := promoTy_ok ta hw
  cases op with
  | ar o => rfl
  | sh s =>
    cases s with
    | shl => simp only [akind, nbinop, nshift, binop, hp.2.1]
    | shr =>
      simp only [akind, nbinop, binop]
      by_cases hu : ta.uns = true
      · rw [if_pos hu]
        simp only [nshift, hp.2.1]
        rw [if_neg]
        have := (range_uns ta a hw hu ha).1; omega
      · rw [if_neg hu]
        simp only [nshift, hp.2.1]
        rw [if_neg]
        exact fun c => hu (promoTy_uns ta hw c)

theorem akindTy_akind (op : BinOp) (ta tb : ITy) (ha : ta.wf = true) (hb : tb.wf = true) :
    cty (akindTy (akind op ta) ta tb) = op.ty (cty ta) (cty tb) := by
  cases op with
  | ar o => exact (commonTy_ok ta tb ha hb).2.1
  | sh s => cases s <;> exact (promoTy_ok ta ha).2.1

include hacc in
theorem condCast_impl {n : Node} {t : ITy} {f : Store → Res (Int × Store)} (h : Impl Γ nt acc n t f) :
    ∃ t' f', Impl Γ nt acc (condCast hs opt n) t' f' ∧ Boolish (condCast hs opt n) ∧
      (∀ σ, f' σ = f σ ∨ f' σ = convRes ty_bool f σ) := by
  unfold condCast
  split
  · rename_i ht
    exact ⟨t, f, h, Or.inr ht, fun σ => Or.inl rfl⟩
  · have i := newCast_impl hs opt hacc h ty_bool rfl
    exact ⟨_, _, i, Or.inl (by rw [i.ty]; rfl), fun σ => Or.inr rfl⟩

/-- A condition only looks at whether the value is zero. -/
theorem cond_zero {f f' : Store → Res (Int × Store)} {σ : Store} {α : Type} (h : f' σ = f σ ∨ f' σ = convRes ty_bool f σ)
    (k : (P : Prop) → [Decidable P] → Store → Res α) :
    ((f' σ).bind fun p => k (p.1 = 0) p.2) = (f σ).bind fun p => k (p.1 = 0) p.2 := by
  have kc : ∀ (P Q : Prop) (i : Decidable P) (j : Decidable Q) (s : Store), (P ↔ Q) → @k P i s = @k Q j s := by
    intro P Q i j s hpq
    have e := propext hpq
    subst e
    rw [Subsingleton.elim i j]
  rcases h with h | h
  · rw [h]
  · rw [h, convRes, bind_bind]
    congr 1
    funext p
    simp only [Res.bind]
    apply kc
    rw [show cty ty_bool = .bool from rfl, conv_bool]
    split
    · rename_i e; simp [e]
    · rename_i e; simp [e]

end

end Slimcc
