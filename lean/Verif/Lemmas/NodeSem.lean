import Verif.Lemmas.NodeArith
/-!
The meaning of the compiler's integer expression trees: every node computes at its own type.
This is a device for the proofs; the properties relate the source semantics `ceval` to what the
compiler computes or emits.
-/
set_option autoImplicit false
namespace Slimcc
open Slimcc.Spec Slimcc.Spec.CTy Slimcc.Ty

/-- Type of a promoted operand. -/
def promoTy (t : ITy) : ITy := if t.size < ty_int.size then ty_int else t

/-- A binary operation on operands of types `ta`, `tb`. -/
def nbinop (k : AKind) (ta tb : ITy) (a b : Int) : Res Int :=
  match k with
  | .ar op => binop (.ar op) (cty ta) (cty tb) a b
  | .sh s => nshift (promoTy ta) s a b

/-- Meaning of a tree; `acc` is the value of `ND_NULL_EXPR`. -/
def neval (acc : Int) : Node → Store → Res (Int × Store)
  | .num t v, σ => .ok (nval t v, σ)
  | .null _, σ => .ok (acc, σ)
  | .var _ x, σ => .ok (σ x, σ)
  | .cast t e, σ => (neval acc e σ).bind fun p => .ok (conv (cty t) p.1, p.2)
  | .un op t e, σ => (neval acc e σ).bind fun p => .ok (unop (cty t) op p.1, p.2)
  | .not e, σ => (neval acc e σ).bind fun p => .ok (truth (p.1 = 0), p.2)
  | .bin op t a b, σ => (neval acc a σ).bind fun p => (neval acc b p.2).bind fun q =>
      (arith (cty t) op p.1 q.1).bind fun r => .ok (r, q.2)
  | .shift k t a b, σ => (neval acc a σ).bind fun p => (neval acc b p.2).bind fun q =>
      (nshift t k p.1 q.1).bind fun r => .ok (r, q.2)
  | .cmp op a b, σ => (neval acc a σ).bind fun p => (neval acc b p.2).bind fun q =>
      .ok (cmpVal op p.1 q.1, q.2)
  | .logand a b, σ => (neval acc a σ).bind fun p =>
      if p.1 = 0 then .ok (0, p.2) else (neval acc b p.2).bind fun q => .ok (truth (q.1 ≠ 0), q.2)
  | .logor a b, σ => (neval acc a σ).bind fun p =>
      if p.1 ≠ 0 then .ok (1, p.2) else (neval acc b p.2).bind fun q => .ok (truth (q.1 ≠ 0), q.2)
  | .cond _ c a b, σ => (neval acc c σ).bind fun p =>
      if p.1 ≠ 0 then neval acc a p.2 else neval acc b p.2
  | .comma a b, σ => (neval acc a σ).bind fun p => neval acc b p.2
  | .assign _ x r, σ => (neval acc r σ).bind fun p => .ok (p.1, p.2.set x p.1)
  | .arithAssign k t x r, σ => (neval acc r σ).bind fun p =>
      (nbinop k t r.ty (σ x) p.1).bind fun w => .ok (conv (cty t) w, p.2.set x (conv (cty t) w))
  | .postIncDec t x r, σ => (neval acc r σ).bind fun p =>
      (nbinop (.ar .add) t r.ty (σ x) p.1).bind fun w => .ok (σ x, p.2.set x (conv (cty t) w))

def NoNull : Node → Prop
  | .num _ _ => True
  | .null _ => False
  | .var _ _ => True
  | .cast _ e => NoNull e
  | .un _ _ e => NoNull e
  | .not e => NoNull e
  | .bin _ _ a b => NoNull a ∧ NoNull b
  | .shift _ _ a b => NoNull a ∧ NoNull b
  | .cmp _ a b => NoNull a ∧ NoNull b
  | .logand a b => NoNull a ∧ NoNull b
  | .logor a b => NoNull a ∧ NoNull b
  | .cond _ c a b => NoNull c ∧ NoNull a ∧ NoNull b
  | .comma a b => NoNull a ∧ NoNull b
  | .assign _ _ r => NoNull r
  | .arithAssign _ _ _ r => NoNull r
  | .postIncDec _ _ r => NoNull r

/-- The operand of a condition is a `_Bool` or a truth value. -/
def Boolish (n : Node) : Prop := n.ty.kind = .bool ∨ n.isTruth = true

/-- Trees as `add_type` leaves them; `nt` is the type of `ND_NULL_EXPR`. -/
def WfNode (Γ : Nat → CTy) (nt : ITy) : Node → Prop
  | .num t v => t.wf = true ∧ InRange (cty t) (nval t v)
  | .null t => t.wf = true ∧ t = nt
  | .var t x => t = ity (Γ x)
  | .cast t e => t.wf = true ∧ WfNode Γ nt e
  | .un _ t e => e.ty = t ∧ 4 ≤ t.size ∧ WfNode Γ nt e
  | .not e => Boolish e ∧ WfNode Γ nt e
  | .bin _ t a b => a.ty = t ∧ b.ty = t ∧ 4 ≤ t.size ∧ WfNode Γ nt a ∧ WfNode Γ nt b
  | .shift _ t a b => a.ty = t ∧ 4 ≤ t.size ∧ WfNode Γ nt a ∧ WfNode Γ nt b
  | .cmp _ a b => b.ty = a.ty ∧ 4 ≤ a.ty.size ∧ WfNode Γ nt a ∧ WfNode Γ nt b
  | .logand a b => Boolish a ∧ Boolish b ∧ WfNode Γ nt a ∧ WfNode Γ nt b
  | .logor a b => Boolish a ∧ Boolish b ∧ WfNode Γ nt a ∧ WfNode Γ nt b
  | .cond t c a b => Boolish c ∧ a.ty = t ∧ b.ty = t ∧ 4 ≤ t.size ∧ WfNode Γ nt c ∧ WfNode Γ nt a ∧ WfNode Γ nt b
  | .comma a b => WfNode Γ nt a ∧ WfNode Γ nt b
  | .assign t x r => t = ity (Γ x) ∧ r.ty = t ∧ WfNode Γ nt r
  | .arithAssign _ t x r => t = ity (Γ x) ∧ NoNull r ∧ WfNode Γ nt r
  | .postIncDec t x r => t = ity (Γ x) ∧ NoNull r ∧ WfNode Γ nt r

/-- Types of well-formed trees exist. -/
theorem wf_ty {Γ : Nat → CTy} {nt : ITy} : ∀ n : Node, WfNode Γ nt n → n.ty.wf = true
  | .num _ _, h => h.1
  | .null _, h => h.1
  | .var _ _, h => by simp only [WfNode] at h; subst h; exact ity_wf _
  | .cast _ _, h => h.1
  | .un _ _ e, h => by have := wf_ty e h.2.2; rw [h.1] at this; exact this
  | .not _, _ => rfl
  | .bin _ _ a _, h => by have := wf_ty a h.2.2.2.1; rw [h.1] at this; exact this
  | .shift _ _ a _, h => by have := wf_ty a h.2.2.1; rw [h.1] at this; exact this
  | .cmp _ _ _, _ => rfl
  | .logand _ _, _ => rfl
  | .logor _ _, _ => rfl
  | .cond _ _ a _, h => by have := wf_ty a h.2.2.2.2.2.1; rw [h.2.1] at this; exact this
  | .comma _ b, h => wf_ty b h.2
  | .assign _ _ r, h => by have := wf_ty r h.2.2; rw [h.2.1] at this; exact this
  | .arithAssign _ _ _ _, h => by simp only [Node.ty]; rw [h.1]; exact ity_wf _
  | .postIncDec _ _ _, h => by simp only [Node.ty]; rw [h.1]; exact ity_wf _

theorem bind_ok_iff {α β : Type} (r : Res α) (f : α → Res β) (b : β) :
    r.bind f = .ok b ↔ ∃ a, r = .ok a ∧ f a = .ok b := by
  cases r <;> simp [Res.bind]

theorem StoreOk.set {Γ : Nat → CTy} {σ : Store} (h : StoreOk Γ σ) (x : Nat) (v : Int) (hv : InRange (Γ x) v) :
    StoreOk Γ (σ.set x v) := by
  intro y
  unfold Store.set
  split
  · rename_i e; subst e; exact hv
  · exact h y

theorem int_truth (v : Int) (h : v = 0 ∨ v = 1) : InRange .int v := by
  rw [range_int]; omega

theorem unop_range (t : CTy) (op : UnOp) (v : Int) (h : InRange t v) : InRange t (unop t op v) := by
  cases op
  · exact h
  · exact conv_range _ _
  · exact conv_range _ _

/-- Trees compute values of their type. -/
theorem neval_range {Γ : Nat → CTy} {nt : ITy} {acc : Int} (hacc : InRange (cty nt) acc) :
    ∀ (n : Node) (σ : Store), WfNode Γ nt n → StoreOk Γ σ → ∀ v σ', neval acc n σ = .ok (v, σ') →
      InRange (cty n.ty) v ∧ StoreOk Γ σ'
  | .num t x, σ, hwf, hσ, v, σ', h => by
    simp only [neval, Res.ok.injEq, Prod.mk.injEq] at h
    obtain ⟨rfl, rfl⟩ := h
    exact ⟨hwf.2, hσ⟩
  | .null t, σ, hwf, hσ, v, σ', h => by
    simp only [neval, Res.ok.injEq, Prod.mk.injEq] at h
    obtain ⟨rfl, rfl⟩ := h
    simp only [Node.ty, hwf.2]
    exact ⟨hacc, hσ⟩
  | .var t x, σ, hwf, hσ, v, σ', h => by
    simp only [neval, Res.ok.injEq, Prod.mk.injEq] at h
    obtain ⟨rfl, rfl⟩ := h
    simp only [WfNode] at hwf
    simp only [Node.ty, hwf, cty_ity]
    exact ⟨hσ x, hσ⟩
  | .cast t e, σ, hwf, hσ, v, σ', h => by
    simp only [neval, bind_ok_iff] at h
    obtain ⟨⟨a, σ1⟩, h1, h2⟩ := h
    simp only [Res.ok.injEq, Prod.mk.injEq] at h2
    obtain ⟨rfl, rfl⟩ := h2
    exact ⟨conv_range _ _, (neval_range hacc e σ hwf.2 hσ _ _ h1).2⟩
  | .un op t e, σ, hwf, hσ, v, σ', h => by
    simp only [neval, bind_ok_iff] at h
    obtain ⟨⟨a, σ1⟩, h1, h2⟩ := h
    simp only [Res.ok.injEq, Prod.mk.injEq] at h2
    obtain ⟨rfl, rfl⟩ := h2
    have := neval_range hacc e σ hwf.2.2 hσ _ _ h1
    rw [hwf.1] at this
    exact ⟨unop_range _ _ _ this.1, this.2⟩
  | .not e, σ, hwf, hσ, v, σ', h => by
    simp only [neval, bind_ok_iff] at h
    obtain ⟨⟨a, σ1⟩, h1, h2⟩ := h
    simp only [Res.ok.injEq, Prod.mk.injEq] at h2
    obtain ⟨rfl, rfl⟩ := h2
    exact ⟨int_truth _ (truth_cases _), (neval_range hacc e σ hwf.2 hσ _ _ h1).2⟩
  | .bin op t a b, σ, hwf, hσ, v, σ', h => by
    simp only [neval, bind_ok_iff] at h
    obtain ⟨⟨va, σ1⟩, h1, ⟨vb, σ2⟩, h2, r, h3, h4⟩ := h
    simp only [Res.ok.injEq, Prod.mk.injEq] at h4
    obtain ⟨rfl, rfl⟩ := h4
    have i1 := neval_range hacc a σ hwf.2.2.2.1 hσ _ _ h1
    have i2 := neval_range hacc b σ1 hwf.2.2.2.2 i1.2 _ _ h2
    rw [hwf.1] at i1
    exact ⟨arith_range _ _ _ _ _ i1.1 h3, i2.2⟩
  | .shift k t a b, σ, hwf, hσ, v, σ', h => by
    simp only [neval, bind_ok_iff] at h
    obtain ⟨⟨va, σ1⟩, h1, ⟨vb, σ2⟩, h2, r, h3, h4⟩ := h
    simp only [Res.ok.injEq, Prod.mk.injEq] at h4
    obtain ⟨rfl, rfl⟩ := h4
    have i1 := neval_range hacc a σ hwf.2.2.1 hσ _ _ h1
    have i2 := neval_range hacc b σ1 hwf.2.2.2 i1.2 _ _ h2
    rw [hwf.1] at i1
    exact ⟨nshift_range _ _ _ _ _ i1.1 h3, i2.2⟩
  | .cmp op a b, σ, hwf, hσ, v, σ', h => by
    simp only [neval, bind_ok_iff] at h
    obtain ⟨⟨va, σ1⟩, h1, ⟨vb, σ2⟩, h2, h4⟩ := h
    simp only [Res.ok.injEq, Prod.mk.injEq] at h4
    obtain ⟨rfl, rfl⟩ := h4
    have i1 := neval_range hacc a σ hwf.2.2.1 hσ _ _ h1
    have i2 := neval_range hacc b σ1 hwf.2.2.2 i1.2 _ _ h2
    exact ⟨int_truth _ (compare_range _ _ _), i2.2⟩
  | .logand a b, σ, hwf, hσ, v, σ', h => by
    simp only [neval, bind_ok_iff] at h
    obtain ⟨⟨va, σ1⟩, h1, h2⟩ := h
    have i1 := neval_range hacc a σ hwf.2.2.1 hσ _ _ h1
    split at h2
    · simp only [Res.ok.injEq, Prod.mk.injEq] at h2
      obtain ⟨rfl, rfl⟩ := h2
      exact ⟨int_truth _ (Or.inl rfl), i1.2⟩
    · rw [bind_ok_iff] at h2
      obtain ⟨⟨vb, σ2⟩, h2, h4⟩ := h2
      simp only [Res.ok.injEq, Prod.mk.injEq] at h4
      obtain ⟨rfl, rfl⟩ := h4
      exact ⟨int_truth _ (truth_cases _), (neval_range hacc b σ1 hwf.2.2.2 i1.2 _ _ h2).2⟩
  | .logor a b, σ, hwf, hσ, v, σ', h => by
    simp only [neval, bind_ok_iff] at h
    obtain ⟨⟨va, σ1⟩, h1, h2⟩ := h
    have i1 := neval_range hacc a σ hwf.2.2.1 hσ _ _ h1
    split at h2
    · simp only [Res.ok.injEq, Prod.mk.injEq] at h2
      obtain ⟨rfl, rfl⟩ := h2
      exact ⟨int_truth _ (Or.inr rfl), i1.2⟩
    · rw [bind_ok_iff] at h2
      obtain ⟨⟨vb, σ2⟩, h2, h4⟩ := h2
      simp only [Res.ok.injEq, Prod.mk.injEq] at h4
      obtain ⟨rfl, rfl⟩ := h4
      exact ⟨int_truth _ (truth_cases _), (neval_range hacc b σ1 hwf.2.2.2 i1.2 _ _ h2).2⟩
  | .cond t c a b, σ, hwf, hσ, v, σ', h => by
    simp only [neval, bind_ok_iff] at h
    obtain ⟨⟨va, σ1⟩, h1, h2⟩ := h
    obtain ⟨_, ha, hb, _, wc, wa, wb⟩ := hwf
    have i1 := neval_range hacc c σ wc hσ _ _ h1
    simp only [Node.ty]
    split at h2
    · have := neval_range hacc a σ1 wa i1.2 _ _ h2; rwa [ha] at this
    · have := neval_range hacc b σ1 wb i1.2 _ _ h2; rwa [hb] at this
  | .comma a b, σ, hwf, hσ, v, σ', h => by
    simp only [neval, bind_ok_iff] at h
    obtain ⟨⟨va, σ1⟩, h1, h2⟩ := h
    have i1 := neval_range hacc a σ hwf.1 hσ _ _ h1
    exact neval_range hacc b σ1 hwf.2 i1.2 _ _ h2
  | .assign t x r, σ, hwf, hσ, v, σ', h => by
    simp only [neval, bind_ok_iff] at h
    obtain ⟨⟨va, σ1⟩, h1, h2⟩ := h
    simp only [Res.ok.injEq, Prod.mk.injEq] at h2
    obtain ⟨rfl, rfl⟩ := h2
    have i1 := neval_range hacc r σ hwf.2.2 hσ _ _ h1
    rw [hwf.2.1] at i1
    refine ⟨i1.1, StoreOk.set i1.2 x _ ?_⟩
    have := i1.1
    rwa [hwf.1, cty_ity] at this
  | .arithAssign k t x r, σ, hwf, hσ, v, σ', h => by
    simp only [neval, bind_ok_iff] at h
    obtain ⟨⟨va, σ1⟩, h1, w, h2, h3⟩ := h
    simp only [Res.ok.injEq, Prod.mk.injEq] at h3
    obtain ⟨rfl, rfl⟩ := h3
    have i1 := neval_range hacc r σ hwf.2.2 hσ _ _ h1
    refine ⟨conv_range _ _, StoreOk.set i1.2 x _ ?_⟩
    rw [hwf.1, cty_ity]; exact conv_range _ _
  | .postIncDec t x r, σ, hwf, hσ, v, σ', h => by
    simp only [neval, bind_ok_iff] at h
    obtain ⟨⟨va, σ1⟩, h1, w, h2, h3⟩ := h
    simp only [Res.ok.injEq, Prod.mk.injEq] at h3
    obtain ⟨rfl, rfl⟩ := h3
    have i1 := neval_range hacc r σ hwf.2.2 hσ _ _ h1
    refine ⟨?_, StoreOk.set i1.2 x _ ?_⟩
    · simp only [Node.ty]; rw [hwf.1, cty_ity]; exact hσ x
    · rw [hwf.1, cty_ity]; exact conv_range _ _

/-- What the evaluator must give for the meaning of a tree: nothing that changes the store is
accepted, accepted values are right, and a division by zero is an error. -/
def Agrees (r : Res (Int × Store)) (σ : Store) (o : Outcome (BitVec 64)) : Prop :=
  match r with
  | .ok (v, σ') => o = .error ∨ (o = .ok (BitVec.ofInt 64 v) ∧ σ' = σ)
  | .divZero => o = .error
  | .undef => True

theorem ofInt_zero_iff (t : ITy) (v : Int) (hw : t.wf = true) (h : InRange (cty t) v) : BitVec.ofInt 64 v = 0 ↔ v = 0 :=
  ⟨fun e => ofInt_inj t v 0 hw h (zero_range t hw) e, by rintro rfl; rfl⟩

theorem isVar_iff (a : Node) (h : a.isVar = true) : ∃ ty x, a = .var ty x := by
  cases a <;> simp only [Node.isVar, Bool.false_eq_true] at h
  exact ⟨_, _, rfl⟩

/-- The evaluator agrees with the meaning. -/
theorem evalNode_agrees {Γ : Nat → CTy} {nt : ITy} {acc : Int} (hs : HostShift) (hacc : InRange (cty nt) acc) :
    ∀ (n : Node) (σ : Store), WfNode Γ nt n → StoreOk Γ σ → Agrees (neval acc n σ) σ (evalNode hs n) := by
  intro n
  induction n with
  | num t x =>
    intro σ hwf hσ
    exact Or.inr ⟨by simp only [evalNode, ofInt_nval], rfl⟩
  | null t => intro σ hwf hσ; simp only [neval, evalNode, Agrees, true_or]
  | var t x => intro σ hwf hσ; simp only [neval, evalNode, Agrees, true_or]
  | cast t e ih =>
    intro σ hwf hσ
    have i := ih σ hwf.2 hσ
    have rr := neval_range hacc e σ hwf.2 hσ
    simp only [neval, evalNode]
    cases h : neval acc e σ with
    | ok p =>
      obtain ⟨v, σ'⟩ := p
      simp only [h, Agrees] at i
      have hr := rr v σ' h
      rcases i with i | ⟨i, rfl⟩
      · rw [i]; exact Or.inl rfl
      · rw [i]; exact Or.inr ⟨by simp only [Outcome.bind_ok, evalCastTo_ofInt t e.ty v hwf.1 (wf_ty e hwf.2) hr.1], rfl⟩
    | divZero => simp only [h, Agrees] at i; rw [i]; exact rfl
    | undef => trivial
  | un op t e ih =>
    intro σ hwf hσ
    have i := ih σ hwf.2.2 hσ
    have rr := neval_range hacc e σ hwf.2.2 hσ
    have hk := big_ne_bool t hwf.2.1
    have hw : t.wf = true := by have := wf_ty e hwf.2.2; rwa [hwf.1] at this
    cases h : neval acc e σ with
    | ok p =>
      obtain ⟨v, σ'⟩ := p
      simp only [h, Agrees] at i
      have hr := rr v σ' h
      cases op <;> simp only [neval, evalNode, h, Res.bind, unop]
      · exact i
      · rcases i with i | ⟨i, rfl⟩
        · rw [i]; exact Or.inl rfl
        · rw [i]; exact Or.inr ⟨by simp only [Outcome.bind_ok]; rw [← signExt_ofInt t _ hw hk, BitVec.ofInt_neg], rfl⟩
      · rcases i with i | ⟨i, rfl⟩
        · rw [i]; exact Or.inl rfl
        · rw [i]
          refine Or.inr ⟨?_, rfl⟩
          simp only [Outcome.bind_ok]
          rw [← signExt_ofInt t _ hw hk, Int.sub_eq_add_neg, BitVec.ofInt_add, BitVec.ofInt_neg]
          rw [BitVec.not_eq_neg_add, BitVec.sub_eq_add_neg]
          have h1 : BitVec.ofInt 64 (-1) = -1#64 := by decide
          rw [h1]
    | divZero =>
      simp only [h, Agrees] at i
      cases op <;> simp only [neval, evalNode, h, Res.bind, i] <;> exact rfl
    | undef => cases op <;> simp only [neval, h, Res.bind, Agrees]
  | not e ih =>
    intro σ hwf hσ
    have i := ih σ hwf.2 hσ
    have rr := neval_range hacc e σ hwf.2 hσ
    simp only [neval, evalNode]
    cases h : neval acc e σ with
    | ok p =>
      obtain ⟨v, σ'⟩ := p
      simp only [h, Agrees] at i
      have hr := rr v σ' h
      rcases i with i | ⟨i, rfl⟩
      · rw [i]; exact Or.inl rfl
      · rw [i]
        refine Or.inr ⟨?_, rfl⟩
        simp only [Outcome.bind_ok]
        rw [← b64_truth, beq_eq]
        simp only [ofInt_zero_iff e.ty v (wf_ty e hwf.2) hr.1]
    | divZero => simp only [h, Agrees] at i; rw [i]; exact rfl
    | undef => trivial
  | bin op t a b iha ihb =>
    intro σ hwf hσ
    obtain ⟨hta, htb, hsz, wa, wb⟩ := hwf
    have i := iha σ wa hσ
    have rr := neval_range hacc a σ wa hσ
    have hw : t.wf = true := by have := wf_ty a wa; rwa [hta] at this
    simp only [neval, evalNode]
    cases h : neval acc a σ with
    | ok p =>
      obtain ⟨v, σ'⟩ := p
      simp only [h, Agrees] at i
      have hr := rr v σ' h
      simp only [Res.bind]
      have rb := neval_range hacc b σ' wb hr.2
      have j := ihb σ' wb hr.2
      cases h2 : neval acc b σ' with
      | ok q =>
        obtain ⟨w, σ''⟩ := q
        simp only [h2, Agrees] at j
        have hr2 := rb w σ'' h2
        rw [hta] at hr
        rw [htb] at hr2
        have m := evalBin_meets op t v w hw hsz hr.1 hr2.1
        simp only []
        rcases i with i | ⟨i, rfl⟩
        · rw [i]
          cases arith (cty t) op v w <;> simp only [Agrees, Outcome.bind_error, true_or]
        · rw [i]
          rcases j with j | ⟨j, rfl⟩
          · rw [j]
            cases arith (cty t) op v w <;> simp only [Agrees, Outcome.bind_ok, Outcome.bind_error, true_or]
          · rw [j]
            simp only [Outcome.bind_ok]
            cases h3 : arith (cty t) op v w with
            | ok r => simp only [h3, Meets] at m; exact Or.inr ⟨m, rfl⟩
            | divZero => simp only [h3, Meets] at m; simp only [Agrees, m]
            | undef => trivial
      | divZero =>
        simp only [h2, Agrees] at j
        rcases i with i | ⟨i, rfl⟩
        · rw [i]; exact rfl
        · rw [i, j]; exact rfl
      | undef => trivial
    | divZero => simp only [h, Agrees] at i; rw [i]; exact rfl
    | undef => trivial
  | shift k t a b iha ihb =>
    intro σ hwf hσ
    obtain ⟨hta, hsz, wa, wb⟩ := hwf
    have i := iha σ wa hσ
    have rr := neval_range hacc a σ wa hσ
    have hw : t.wf = true := by have := wf_ty a wa; rwa [hta] at this
    simp only [neval, evalNode]
    cases h : neval acc a σ with
    | ok p =>
      obtain ⟨v, σ'⟩ := p
      simp only [h, Agrees] at i
      have hr := rr v σ' h
      simp only [Res.bind]
      have rb := neval_range hacc b σ' wb hr.2
      have j := ihb σ' wb hr.2
      cases h2 : neval acc b σ' with
      | ok q =>
        obtain ⟨w, σ''⟩ := q
        simp only [h2, Agrees] at j
        have hr2 := rb w σ'' h2
        rw [hta] at hr
        have m := evalShift_meets hs k t v w hw hsz hr.1 b.ty (wf_ty b wb) hr2.1
        simp only []
        have hnd := nshift_no_div t k v w
        rcases i with i | ⟨i, rfl⟩
        · rw [i]
          cases h3 : nshift t k v w <;> simp only [Agrees, Outcome.bind_error, true_or]
        · rw [i]
          rcases j with j | ⟨j, rfl⟩
          · rw [j]
            cases h3 : nshift t k v w <;> simp only [Agrees, Outcome.bind_ok, Outcome.bind_error, true_or]
          · rw [j]
            simp only [Outcome.bind_ok]
            cases h3 : nshift t k v w with
            | ok r => simp only [h3, Meets] at m; exact Or.inr ⟨m, rfl⟩
            | divZero => exact absurd h3 hnd
            | undef => trivial
      | divZero =>
        simp only [h2, Agrees] at j
        rcases i with i | ⟨i, rfl⟩
        · rw [i]; exact rfl
        · rw [i, j]; exact rfl
      | undef => trivial
    | divZero => simp only [h, Agrees] at i; rw [i]; exact rfl
    | undef => trivial
  | cmp op a b iha ihb =>
    intro σ hwf hσ
    obtain ⟨htb, hsz, wa, wb⟩ := hwf
    have i := iha σ wa hσ
    have rr := neval_range hacc a σ wa hσ
    simp only [neval, evalNode]
    cases h : neval acc a σ with
    | ok p =>
      obtain ⟨v, σ'⟩ := p
      simp only [h, Agrees] at i
      have hr := rr v σ' h
      simp only [Res.bind]
      have rb := neval_range hacc b σ' wb hr.2
      have j := ihb σ' wb hr.2
      cases h2 : neval acc b σ' with
      | ok q =>
        obtain ⟨w, σ''⟩ := q
        simp only [h2, Agrees] at j
        have hr2 := rb w σ'' h2
        rw [htb] at hr2
        rcases i with i | ⟨i, rfl⟩
        · rw [i]; exact Or.inl rfl
        · rcases j with j | ⟨j, rfl⟩
          · rw [i, j]; exact Or.inl rfl
          · rw [i, j]
            refine Or.inr ⟨?_, rfl⟩
            simp only [Outcome.bind_ok, evalCmp_eq op a.ty v w (wf_ty a wa) hr.1 hr2.1]
      | divZero =>
        simp only [h2, Agrees] at j
        rcases i with i | ⟨i, rfl⟩
        · rw [i]; exact rfl
        · rw [i, j]; exact rfl
      | undef => trivial
    | divZero => simp only [h, Agrees] at i; rw [i]; exact rfl
    | undef => trivial
  | logand a b iha ihb =>
    intro σ hwf hσ
    obtain ⟨_, _, wa, wb⟩ := hwf
    have i := iha σ wa hσ
    have rr := neval_range hacc a σ wa hσ
    simp only [neval, evalNode]
    cases h : neval acc a σ with
    | ok p =>
      obtain ⟨v, σ'⟩ := p
      simp only [h, Agrees] at i
      have hr := rr v σ' h
      have hz := ofInt_zero_iff a.ty v (wf_ty a wa) hr.1
      simp only [Res.bind]
      by_cases hv : v = 0
      · rw [if_pos hv]
        rcases i with i | ⟨i, rfl⟩
        · rw [i]; exact Or.inl rfl
        · rw [i]; refine Or.inr ⟨?_, rfl⟩; simp only [Outcome.bind_ok]; rw [if_pos (hz.2 hv)]; rfl
      · rw [if_neg hv]
        have rb := neval_range hacc b σ' wb hr.2
        have j := ihb σ' wb hr.2
        cases h2 : neval acc b σ' with
        | ok q =>
          obtain ⟨w, σ''⟩ := q
          simp only [h2, Agrees] at j
          have hr2 := rb w σ'' h2
          have hz2 := ofInt_zero_iff b.ty w (wf_ty b wb) hr2.1
          rcases i with i | ⟨i, rfl⟩
          · rw [i]; exact Or.inl rfl
          · rcases j with j | ⟨j, rfl⟩
            · rw [i, j]; refine Or.inl ?_; simp only [Outcome.bind_ok]; rw [if_neg (fun e => hv (hz.1 e))]; rfl
            · rw [i, j]
              refine Or.inr ⟨?_, rfl⟩
              simp only [Outcome.bind_ok]
              rw [if_neg (fun e => hv (hz.1 e)), bne_eq, ← b64_truth]
              simp only [ne_eq, hz2]
        | divZero =>
          simp only [h2, Agrees] at j
          rcases i with i | ⟨i, rfl⟩
          · rw [i]; exact rfl
          · rw [i, j]; simp only [Outcome.bind_ok, Agrees]; rw [if_neg (fun e => hv (hz.1 e))]; rfl
        | undef => trivial
    | divZero => simp only [h, Agrees] at i; rw [i]; exact rfl
    | undef => trivial
  | logor a b iha ihb =>
    intro σ hwf hσ
    obtain ⟨_, _, wa, wb⟩ := hwf
    have i := iha σ wa hσ
    have rr := neval_range hacc a σ wa hσ
    simp only [neval, evalNode]
    cases h : neval acc a σ with
    | ok p =>
      obtain ⟨v, σ'⟩ := p
      simp only [h, Agrees] at i
      have hr := rr v σ' h
      have hz := ofInt_zero_iff a.ty v (wf_ty a wa) hr.1
      simp only [Res.bind]
      by_cases hv : v = 0
      · rw [if_neg (by simpa using hv)]
        have hz' : ¬ BitVec.ofInt 64 v ≠ 0 := fun c => c (hz.2 hv)
        have rb := neval_range hacc b σ' wb hr.2
        have j := ihb σ' wb hr.2
        cases h2 : neval acc b σ' with
        | ok q =>
          obtain ⟨w, σ''⟩ := q
          simp only [h2, Agrees] at j
          have hr2 := rb w σ'' h2
          have hz2 := ofInt_zero_iff b.ty w (wf_ty b wb) hr2.1
          rcases i with i | ⟨i, rfl⟩
          · rw [i]; exact Or.inl rfl
          · rcases j with j | ⟨j, rfl⟩
            · rw [i, j]; refine Or.inl ?_; simp only [Outcome.bind_ok]; rw [if_neg hz']; rfl
            · rw [i, j]
              refine Or.inr ⟨?_, rfl⟩
              simp only [Outcome.bind_ok]
              rw [if_neg hz', bne_eq, ← b64_truth]
              simp only [ne_eq, hz2]
        | divZero =>
          simp only [h2, Agrees] at j
          rcases i with i | ⟨i, rfl⟩
          · rw [i]; exact rfl
          · rw [i, j]; simp only [Outcome.bind_ok, Agrees]; rw [if_neg hz']; rfl
        | undef => trivial
      · rw [if_pos hv]
        rcases i with i | ⟨i, rfl⟩
        · rw [i]; exact Or.inl rfl
        · rw [i]; refine Or.inr ⟨?_, rfl⟩; simp only [Outcome.bind_ok]; rw [if_pos (fun e => hv (hz.1 e))]; rfl
    | divZero => simp only [h, Agrees] at i; rw [i]; exact rfl
    | undef => trivial
  | cond t c a b ihc iha ihb =>
    intro σ hwf hσ
    obtain ⟨_, _, _, _, wc, wa, wb⟩ := hwf
    have i := ihc σ wc hσ
    have rr := neval_range hacc c σ wc hσ
    simp only [neval, evalNode]
    cases h : neval acc c σ with
    | ok p =>
      obtain ⟨v, σ'⟩ := p
      simp only [h, Agrees] at i
      have hr := rr v σ' h
      have hz := ofInt_zero_iff c.ty v (wf_ty c wc) hr.1
      simp only [Res.bind]
      by_cases hv : v = 0
      · rw [if_neg (by simpa using hv)]
        have hz' : ¬ BitVec.ofInt 64 v ≠ 0 := fun c => c (hz.2 hv)
        have j := ihb σ' wb hr.2
        rcases i with i | ⟨i, rfl⟩
        · rw [i]; simp only [Outcome.bind_error]
          cases neval acc b σ' <;> simp only [Agrees, true_or]
        · rw [i]; simp only [Outcome.bind_ok]; rw [if_neg hz']; exact j
      · rw [if_pos hv]
        have j := iha σ' wa hr.2
        rcases i with i | ⟨i, rfl⟩
        · rw [i]; simp only [Outcome.bind_error]
          cases neval acc a σ' <;> simp only [Agrees, true_or]
        · rw [i]; simp only [Outcome.bind_ok]; rw [if_pos (fun e => hv (hz.1 e))]; exact j
    | divZero => simp only [h, Agrees] at i; rw [i]; exact rfl
    | undef => trivial
  | comma a b iha ihb =>
    intro σ hwf hσ
    have i := iha σ hwf.1 hσ
    have rr := neval_range hacc a σ hwf.1 hσ
    simp only [neval, evalNode]
    by_cases hv : a.isVar = true
    · rw [if_pos hv]
      obtain ⟨ty, x, rfl⟩ := isVar_iff a hv
      simp only [neval, Res.bind]
      exact ihb σ hwf.2 hσ
    · rw [if_neg hv]
      cases h : neval acc a σ with
      | ok p =>
        obtain ⟨v, σ'⟩ := p
        simp only [h, Agrees] at i
        have hr := rr v σ' h
        have j := ihb σ' hwf.2 hr.2
        simp only [Res.bind]
        rcases i with i | ⟨i, rfl⟩
        · rw [i]; simp only [Outcome.bind_error]
          cases neval acc b σ' <;> simp only [Agrees, true_or]
        · rw [i]; simp only [Outcome.bind_ok]; exact j
      | divZero => simp only [h, Agrees] at i; rw [i]; exact rfl
      | undef => trivial
  | assign t x r ih =>
    intro σ hwf hσ
    simp only [evalNode]
    cases neval acc (.assign t x r) σ <;> simp only [Agrees, true_or]
  | arithAssign k t x r ih =>
    intro σ hwf hσ
    simp only [evalNode]
    cases neval acc (.arithAssign k t x r) σ <;> simp only [Agrees, true_or]
  | postIncDec t x r ih =>
    intro σ hwf hσ
    simp only [evalNode]
    cases neval acc (.postIncDec t x r) σ <;> simp only [Agrees, true_or]

end Slimcc
