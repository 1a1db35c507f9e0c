import Verif.Lemmas.BuildOk
import Verif.Model.Gen
/-! Side conditions on trees, and how the trees the compiler makes keep them. -/
set_option autoImplicit false
namespace Slimcc
open Slimcc.Spec Slimcc.Spec.CTy Slimcc.Ty Slimcc.Gen

/-- Variables that occur. -/
def nvars : Node → List Nat
  | .num _ _ | .null _ => []
  | .var _ x => [x]
  | .cast _ e | .un _ _ e | .not e => nvars e
  | .bin _ _ a b | .shift _ _ a b | .cmp _ a b | .logand a b | .logor a b | .comma a b => nvars a ++ nvars b
  | .cond _ c a b => nvars c ++ (nvars a ++ nvars b)
  | .assign _ x r | .arithAssign _ _ x r | .postIncDec _ x r => x :: nvars r

/-- Variables that are assigned. -/
def nwrites : Node → List Nat
  | .num _ _ | .null _ | .var _ _ => []
  | .cast _ e | .un _ _ e | .not e => nwrites e
  | .bin _ _ a b | .shift _ _ a b | .cmp _ a b | .logand a b | .logor a b | .comma a b => nwrites a ++ nwrites b
  | .cond _ c a b => nwrites c ++ (nwrites a ++ nwrites b)
  | .assign _ x r | .arithAssign _ _ x r | .postIncDec _ x r => x :: nwrites r

/-- The right operand does not assign what the left one uses. -/
def Sep (a b : Node) : Prop := ∀ x, x ∈ nvars a → x ∉ nwrites b

/-- Variables are in scope, `ND_NULL_EXPR` is at most at the left end, and (when operands may be
reordered) operands do not interfere. -/
def Stat (dom : Nat → Prop) (opt : Bool) : Node → Prop
  | .num _ _ | .null _ => True
  | .var _ x => dom x
  | .cast _ e => Stat dom opt e
  | .un _ _ e | .not e => Stat dom opt e ∧ NoNull e
  | .bin _ _ a b | .cmp _ a b => Stat dom opt a ∧ Stat dom opt b ∧ NoNull b ∧ (opt = true → Sep a b)
  | .shift _ _ a b => Stat dom opt a ∧ Stat dom opt b ∧ NoNull b
  | .logand a b | .logor a b | .comma a b => Stat dom opt a ∧ Stat dom opt b ∧ NoNull a ∧ NoNull b
  | .cond _ c a b => Stat dom opt c ∧ Stat dom opt a ∧ Stat dom opt b ∧ NoNull c ∧ NoNull a ∧ NoNull b
  | .assign _ x r => dom x ∧ Stat dom opt r ∧ NoNull r
  | .arithAssign _ _ x r | .postIncDec _ x r => dom x ∧ Stat dom opt r ∧ NoNull r ∧ (opt = true → x ∉ nwrites r)

/-- Evaluation only changes the variables assigned. -/
theorem neval_writes {acc : Int} : ∀ (n : Node) (σ : Store) (v : Int) (σ' : Store), neval acc n σ = .ok (v, σ') →
    ∀ x, x ∉ nwrites n → σ' x = σ x := by
  intro n
  induction n with
  | num | null | var =>
    intro σ v σ' h x _
    simp only [neval, Res.ok.injEq, Prod.mk.injEq] at h; rw [h.2]
  | cast _ e ih | un _ _ e ih | not e ih =>
    intro σ v σ' h x hx
    simp only [neval, bind_ok_iff, Res.ok.injEq, Prod.mk.injEq] at h
    obtain ⟨p, hp, _, rfl⟩ := h
    exact ih σ p.1 p.2 hp x hx
  | bin _ _ a b iha ihb | shift _ _ a b iha ihb =>
    intro σ v σ' h x hx
    simp only [neval, bind_ok_iff, Res.ok.injEq, Prod.mk.injEq] at h
    obtain ⟨p, hp, q, hq, r, _, _, rfl⟩ := h
    simp only [nwrites, List.mem_append, not_or] at hx
    rw [ihb p.2 q.1 q.2 hq x hx.2, iha σ p.1 p.2 hp x hx.1]
  | cmp _ a b iha ihb =>
    intro σ v σ' h x hx
    simp only [neval, bind_ok_iff, Res.ok.injEq, Prod.mk.injEq] at h
    obtain ⟨p, hp, q, hq, _, rfl⟩ := h
    simp only [nwrites, List.mem_append, not_or] at hx
    rw [ihb p.2 q.1 q.2 hq x hx.2, iha σ p.1 p.2 hp x hx.1]
  | comma a b iha ihb =>
    intro σ v σ' h x hx
    simp only [neval, bind_ok_iff] at h
    obtain ⟨p, hp, h⟩ := h
    simp only [nwrites, List.mem_append, not_or] at hx
    rw [ihb p.2 v σ' h x hx.2, iha σ p.1 p.2 hp x hx.1]
  | logand a b iha ihb =>
    intro σ v σ' h x hx
    simp only [neval, bind_ok_iff] at h
    obtain ⟨p, hp, h⟩ := h
    simp only [nwrites, List.mem_append, not_or] at hx
    have e := iha σ p.1 p.2 hp x hx.1
    split at h
    · simp only [Res.ok.injEq, Prod.mk.injEq] at h; rw [← h.2, e]
    · simp only [bind_ok_iff, Res.ok.injEq, Prod.mk.injEq] at h
      obtain ⟨q, hq, _, rfl⟩ := h
      rw [ihb p.2 q.1 q.2 hq x hx.2, e]
  | logor a b iha ihb =>
    intro σ v σ' h x hx
    simp only [neval, bind_ok_iff] at h
    obtain ⟨p, hp, h⟩ := h
    simp only [nwrites, List.mem_append, not_or] at hx
    have e := iha σ p.1 p.2 hp x hx.1
    split at h
    · simp only [Res.ok.injEq, Prod.mk.injEq] at h; rw [← h.2, e]
    · simp only [bind_ok_iff, Res.ok.injEq, Prod.mk.injEq] at h
      obtain ⟨q, hq, _, rfl⟩ := h
      rw [ihb p.2 q.1 q.2 hq x hx.2, e]
  | cond _ c a b ihc iha ihb =>
    intro σ v σ' h x hx
    simp only [neval, bind_ok_iff] at h
    obtain ⟨p, hp, h⟩ := h
    simp only [nwrites, List.mem_append, not_or] at hx
    have e := ihc σ p.1 p.2 hp x hx.1
    split at h
    · rw [iha p.2 v σ' h x hx.2.1, e]
    · rw [ihb p.2 v σ' h x hx.2.2, e]
  | assign _ y r ih =>
    intro σ v σ' h x hx
    simp only [neval, bind_ok_iff, Res.ok.injEq, Prod.mk.injEq] at h
    obtain ⟨p, hp, _, rfl⟩ := h
    simp only [nwrites, List.mem_cons, not_or] at hx
    simp only [Store.set, if_neg hx.1]
    exact ih σ p.1 p.2 hp x hx.2
  | arithAssign _ _ y r ih | postIncDec _ y r ih =>
    intro σ v σ' h x hx
    simp only [neval, bind_ok_iff, Res.ok.injEq, Prod.mk.injEq] at h
    obtain ⟨p, hp, w, _, _, rfl⟩ := h
    simp only [nwrites, List.mem_cons, not_or] at hx
    simp only [Store.set, if_neg hx.1]
    exact ih σ p.1 p.2 hp x hx.2

/-- Without `ND_NULL_EXPR` its value and type do not matter. -/
theorem neval_acc (acc acc' : Int) : ∀ (n : Node) (σ : Store), NoNull n → neval acc n σ = neval acc' n σ := by
  intro n
  induction n with
  | num | var => intros; rfl
  | null => intro σ h; exact h.elim
  | cast _ e ih | un _ _ e ih | not e ih | assign _ _ e ih | arithAssign _ _ _ e ih | postIncDec _ _ e ih =>
    intro σ h; simp only [neval]; rw [ih σ h]
  | bin _ _ a b iha ihb | shift _ _ a b iha ihb | cmp _ a b iha ihb | logand a b iha ihb | logor a b iha ihb
  | comma a b iha ihb =>
    intro σ h
    simp only [neval]
    rw [iha σ h.1]
    congr 1; funext p; rw [ihb p.2 h.2]
  | cond _ c a b ihc iha ihb =>
    intro σ h
    simp only [neval]
    rw [ihc σ h.1]
    congr 1; funext p; rw [iha p.2 h.2.1, ihb p.2 h.2.2]

theorem wf_nt (Γ : Nat → CTy) (nt nt' : ITy) : ∀ n : Node, NoNull n → WfNode Γ nt n → WfNode Γ nt' n
  | .num _ _, _, h => h
  | .null _, h, _ => h.elim
  | .var _ _, _, h => h
  | .cast _ e, h, w => ⟨w.1, wf_nt Γ nt nt' e h w.2⟩
  | .un _ _ e, h, w => ⟨w.1, w.2.1, wf_nt Γ nt nt' e h w.2.2⟩
  | .not e, h, w => ⟨w.1, wf_nt Γ nt nt' e h w.2⟩
  | .bin _ _ a b, h, w => ⟨w.1, w.2.1, w.2.2.1, wf_nt Γ nt nt' a h.1 w.2.2.2.1, wf_nt Γ nt nt' b h.2 w.2.2.2.2⟩
  | .shift _ _ a b, h, w => ⟨w.1, w.2.1, wf_nt Γ nt nt' a h.1 w.2.2.1, wf_nt Γ nt nt' b h.2 w.2.2.2⟩
  | .cmp _ a b, h, w => ⟨w.1, w.2.1, wf_nt Γ nt nt' a h.1 w.2.2.1, wf_nt Γ nt nt' b h.2 w.2.2.2⟩
  | .logand a b, h, w => ⟨w.1, w.2.1, wf_nt Γ nt nt' a h.1 w.2.2.1, wf_nt Γ nt nt' b h.2 w.2.2.2⟩
  | .logor a b, h, w => ⟨w.1, w.2.1, wf_nt Γ nt nt' a h.1 w.2.2.1, wf_nt Γ nt nt' b h.2 w.2.2.2⟩
  | .cond _ c a b, h, w => ⟨w.1, w.2.1, w.2.2.1, w.2.2.2.1, wf_nt Γ nt nt' c h.1 w.2.2.2.2.1, wf_nt Γ nt nt' a h.2.1 w.2.2.2.2.2.1,
      wf_nt Γ nt nt' b h.2.2 w.2.2.2.2.2.2⟩
  | .comma a b, h, w => ⟨wf_nt Γ nt nt' a h.1 w.1, wf_nt Γ nt nt' b h.2 w.2⟩
  | .assign _ _ r, h, w => ⟨w.1, w.2.1, wf_nt Γ nt nt' r h w.2.2⟩
  | .arithAssign _ _ _ r, h, w => ⟨w.1, w.2.1, wf_nt Γ nt nt' r h w.2.2⟩
  | .postIncDec _ _ r, h, w => ⟨w.1, w.2.1, wf_nt Γ nt nt' r h w.2.2⟩

section
variable (hs : HostShift) (opt : Bool) (dom : Nat → Prop)

/-- The trees `new_cast` can make. -/
theorem newCast_cases (n : Node) (t : ITy) :
    (∃ x, newCast hs opt n t = .num t x) ∨ (newCast hs opt n t = n ∧ n.ty = t) ∨ newCast hs opt n t = .cast t n ∨
      (∃ t2 e, n = .cast t2 e ∧ newCast hs opt n t = .cast t e) := by
  unfold newCast
  cases opt with
  | false => exact Or.inr (Or.inr (Or.inl rfl))
  | true =>
    simp only [if_true]
    cases evalNode hs (.cast t n) with
    | ok x => exact Or.inl ⟨x, rfl⟩
    | error | ub =>
      dsimp only
      by_cases h : n.ty = t
      · rw [if_pos h]; exact Or.inr (Or.inl ⟨rfl, h⟩)
      · rw [if_neg h]
        cases hra : redundantArg n t with
        | none => exact Or.inr (Or.inr (Or.inl rfl))
        | some e =>
          obtain ⟨t2, rfl, _⟩ := redundantArg_some n e t hra
          exact Or.inr (Or.inr (Or.inr ⟨t2, e, rfl, rfl⟩))

theorem newCast_ty (n : Node) (t : ITy) : (newCast hs opt n t).ty = t := by
  rcases newCast_cases hs opt n t with ⟨x, e⟩ | ⟨e, h⟩ | e | ⟨t2, m, rfl, e⟩ <;> rw [e]
  · rfl
  · exact h
  · rfl
  · rfl

theorem newCast_sub (n : Node) (t : ITy) :
    (∀ x, x ∈ nvars (newCast hs opt n t) → x ∈ nvars n) ∧ (∀ x, x ∈ nwrites (newCast hs opt n t) → x ∈ nwrites n) := by
  rcases newCast_cases hs opt n t with ⟨x, e⟩ | ⟨e, h⟩ | e | ⟨t2, m, rfl, e⟩ <;> rw [e]
  · exact ⟨fun _ h => (List.not_mem_nil h).elim, fun _ h => (List.not_mem_nil h).elim⟩
  · exact ⟨fun _ h => h, fun _ h => h⟩
  · exact ⟨fun _ h => h, fun _ h => h⟩
  · exact ⟨fun _ h => h, fun _ h => h⟩

theorem newCast_stat (n : Node) (t : ITy) (h : Stat dom opt n) : Stat dom opt (newCast hs opt n t) := by
  rcases newCast_cases hs opt n t with ⟨x, e⟩ | ⟨e, _⟩ | e | ⟨t2, m, rfl, e⟩ <;> rw [e]
  · trivial
  · exact h
  · exact h
  · exact h

theorem weight_pos (n : Node) : 1 ≤ weight n := by
  induction n <;> simp only [weight] <;> omega

theorem newCast_weight (n : Node) (t : ITy) : weight (newCast hs opt n t) ≤ weight n + (if t.kind = .bool then 12 else 1) := by
  have hp := weight_pos n
  rcases newCast_cases hs opt n t with ⟨x, e⟩ | ⟨e, h⟩ | e | ⟨t2, m, rfl, e⟩ <;> rw [e]
  · simp only [weight]; omega
  · omega
  · simp only [weight]; omega
  · simp only [weight]; omega

theorem intPromo_ty (n : Node) : (intPromo hs opt n).ty = promoTy n.ty := by
  unfold intPromo promoTy
  split
  · exact newCast_ty hs opt _ _
  · rfl

theorem intPromo_sub (n : Node) :
    (∀ x, x ∈ nvars (intPromo hs opt n) → x ∈ nvars n) ∧ (∀ x, x ∈ nwrites (intPromo hs opt n) → x ∈ nwrites n) := by
  unfold intPromo
  split
  · exact newCast_sub hs opt n _
  · exact ⟨fun _ h => h, fun _ h => h⟩

theorem intPromo_stat (n : Node) (h : Stat dom opt n) : Stat dom opt (intPromo hs opt n) := by
  unfold intPromo
  split
  · exact newCast_stat hs opt dom n _ h
  · exact h

theorem intPromo_weight (n : Node) : weight (intPromo hs opt n) ≤ weight n + 1 := by
  unfold intPromo
  split
  · exact newCast_weight hs opt n ty_int
  · omega

/-- Both operands after the usual conversions. -/
theorem usual_eq (a b : Node) : usualConv hs opt a b =
    (newCast hs opt (intPromo hs opt a) (commonTy a.ty b.ty), newCast hs opt (intPromo hs opt b) (commonTy a.ty b.ty)) := by
  unfold usualConv commonTy
  simp only [intPromo_ty]

theorem usual_ty (a b : Node) : (usualConv hs opt a b).1.ty = commonTy a.ty b.ty ∧ (usualConv hs opt a b).2.ty = commonTy a.ty b.ty := by
  rw [usual_eq]; exact ⟨newCast_ty hs opt _ _, newCast_ty hs opt _ _⟩

theorem usual_stat (a b : Node) (ha : Stat dom opt a) (hb : Stat dom opt b) :
    Stat dom opt (usualConv hs opt a b).1 ∧ Stat dom opt (usualConv hs opt a b).2 := by
  rw [usual_eq]
  exact ⟨newCast_stat hs opt dom _ _ (intPromo_stat hs opt dom a ha), newCast_stat hs opt dom _ _ (intPromo_stat hs opt dom b hb)⟩

theorem usual_sub (a b : Node) :
    ((∀ x, x ∈ nvars (usualConv hs opt a b).1 → x ∈ nvars a) ∧ (∀ x, x ∈ nwrites (usualConv hs opt a b).1 → x ∈ nwrites a)) ∧
    ((∀ x, x ∈ nvars (usualConv hs opt a b).2 → x ∈ nvars b) ∧ (∀ x, x ∈ nwrites (usualConv hs opt a b).2 → x ∈ nwrites b)) := by
  rw [usual_eq]
  have c := newCast_sub hs opt
  have i := intPromo_sub hs opt
  exact ⟨⟨fun x h => (i a).1 x ((c _ _).1 x h), fun x h => (i a).2 x ((c _ _).2 x h)⟩,
    ⟨fun x h => (i b).1 x ((c _ _).1 x h), fun x h => (i b).2 x ((c _ _).2 x h)⟩⟩

theorem usual_weight (a b : Node) (ha : a.ty.wf = true) (hb : b.ty.wf = true) :
    weight (usualConv hs opt a b).1 ≤ weight a + 2 ∧ weight (usualConv hs opt a b).2 ≤ weight b + 2 := by
  rw [usual_eq]
  have hk := big_ne_bool _ (commonTy_ok a.ty b.ty ha hb).2.2
  have c := fun n => newCast_weight hs opt n (commonTy a.ty b.ty)
  simp only [hk, if_false] at c
  have ia := intPromo_weight hs opt a
  have ib := intPromo_weight hs opt b
  exact ⟨by have := c (intPromo hs opt a); dsimp only; omega, by have := c (intPromo hs opt b); dsimp only; omega⟩

theorem mkArith_stat (k : AKind) (a b : Node) (ha : Stat dom opt a) (hb : Stat dom opt b) (hn : NoNull b)
    (hsep : opt = true → Sep a b) : Stat dom opt (mkArith hs opt k a b) := by
  cases k with
  | ar op =>
    have s := usual_stat hs opt dom a b ha hb
    have u := usual_sub hs opt a b
    refine ⟨s.1, s.2, ?_, fun ho x hx hx' => hsep ho x (u.1.1 x hx) (u.2.2 x hx')⟩
    rw [usual_eq]; exact noNull_newCast hs opt _ _ (noNull_intPromo hs opt _ hn)
  | sh s => exact ⟨intPromo_stat hs opt dom a ha, hb, hn⟩

theorem mkArith_sub (k : AKind) (a b : Node) :
    (∀ x, x ∈ nvars (mkArith hs opt k a b) → x ∈ nvars a ∨ x ∈ nvars b) ∧
    (∀ x, x ∈ nwrites (mkArith hs opt k a b) → x ∈ nwrites a ∨ x ∈ nwrites b) := by
  cases k with
  | ar op =>
    have u := usual_sub hs opt a b
    simp only [mkArith, mkBin, nvars, nwrites, List.mem_append]
    exact ⟨fun x h => h.imp (u.1.1 x) (u.2.1 x), fun x h => h.imp (u.1.2 x) (u.2.2 x)⟩
  | sh s =>
    have i := intPromo_sub hs opt a
    simp only [mkArith, mkShift, nvars, nwrites, List.mem_append]
    exact ⟨fun x h => h.imp (i.1 x) id, fun x h => h.imp (i.2 x) id⟩

theorem mkArith_weight (k : AKind) (a b : Node) (ha : a.ty.wf = true) (hb : b.ty.wf = true) :
    weight (mkArith hs opt k a b) ≤ weight a + weight b + 5 := by
  cases k with
  | ar op =>
    have u := usual_weight hs opt a b ha hb
    simp only [mkArith, mkBin, weight]
    omega
  | sh s =>
    have i := intPromo_weight hs opt a
    simp only [mkArith, mkShift, weight]
    omega

theorem nullLhs_stat (k : AKind) (t : ITy) (r : Node) (hr : Stat dom opt r) (hn : NoNull r) : Stat dom opt (nullLhs hs opt k t r) :=
  newCast_stat hs opt dom _ _ (mkArith_stat hs opt dom k _ _ trivial hr hn fun _ x hx => by cases hx)

theorem nullLhs_weight (k : AKind) (t : ITy) (r : Node) (ht : t.wf = true) (hr : r.ty.wf = true) :
    weight (nullLhs hs opt k t r) ≤ weight r + 18 := by
  have c := newCast_weight hs opt (mkArith hs opt k (.null t) r) t
  have m := mkArith_weight hs opt k (.null t) r ht hr
  unfold nullLhs
  simp only [weight] at m
  have : (if t.kind = .bool then 12 else 1) ≤ 12 := by split <;> omega
  omega

theorem cmpZero_stat (e : Node) (op : CmpOp) (h : Stat dom opt e) : Stat dom opt (cmpZero hs opt e op) := by
  have s := usual_stat hs opt dom e (.num e.ty 0) h trivial
  have u := usual_sub hs opt e (.num e.ty 0)
  refine ⟨s.1, s.2, ?_, fun ho x hx hx' => by have := u.2.2 x hx'; cases this⟩
  rw [usual_eq]; exact noNull_newCast hs opt _ _ (noNull_intPromo hs opt _ trivial)

theorem cmpZero_noNull (e : Node) (op : CmpOp) (h : NoNull e) : NoNull (cmpZero hs opt e op) :=
  noNull_usual hs opt e (.num e.ty 0) h trivial

theorem cmpZero_weight (e : Node) (op : CmpOp) (h : e.ty.wf = true) : weight (cmpZero hs opt e op) ≤ weight e + 6 := by
  have u := usual_weight hs opt e (.num e.ty 0) h h
  simp only [weight] at u
  simp only [cmpZero, weight]
  omega

/-- A constant contains no `ND_NULL_EXPR`. -/
theorem evalNode_noNull : ∀ (n : Node) (v : BitVec 64), Stat dom opt n → evalNode hs n = .ok v → NoNull n := by
  intro n
  induction n with
  | num | var => intros; trivial
  | null => intro v _ h; cases h
  | cast t e ih =>
    intro v s h
    simp only [evalNode] at h
    cases he : evalNode hs e with
    | ok x => exact ih x s he
    | error | ub => rw [he] at h; cases h
  | un _ _ e | not e => intro v s h; exact s.2
  | bin _ _ a b iha | cmp _ a b iha | shift _ _ a b iha =>
    intro v s h
    simp only [evalNode] at h
    cases he : evalNode hs a with
    | ok x => exact ⟨iha x s.1 he, by first | exact s.2.2.1 | exact s.2.2⟩
    | error | ub => rw [he] at h; cases h
  | logand a b | logor a b | comma a b => intro v s h; exact s.2.2
  | cond _ c a b => intro v s h; exact s.2.2.2
  | assign _ _ r => intro v s h; exact s.2.2
  | arithAssign _ _ _ r | postIncDec _ _ r => intro v s h; exact s.2.2.1

end

theorem skipCast_cases (n : Node) : (∃ t e, n = .cast t e ∧ t.size = e.ty.size ∧ t.kind ≠ .bool ∧ skipCast n = skipCast e) ∨ skipCast n = n := by
  cases n with
  | cast t e =>
    by_cases h : t.size = e.ty.size ∧ t.kind ≠ .bool
    · exact Or.inl ⟨t, e, rfl, h.1, h.2, by rw [skipCast, if_pos h]⟩
    · exact Or.inr (by rw [skipCast, if_neg h])
  | _ => exact Or.inr rfl

/-- What a memory operand is. -/
theorem memop_spec {Γ : Nat → CTy} {nt : ITy} {acc : Int} : ∀ (n : Node) (x : Nat), memop n = some x → WfNode Γ nt n →
    NoNull n ∧ x ∈ nvars n ∧ n.ty.size = (ity (Γ x)).size ∧ nwrites n = [] ∧ (n.ty.kind = .bool → n = .var (ity (Γ x)) x) ∧
      n.isTruth = false ∧
      ∀ σ, ∃ v, neval acc n σ = .ok (v, σ) ∧ (2 : Int) ^ (8 * n.ty.size) ∣ σ x - v := by
  have hvar : ∀ (n : Node) (x : Nat), (∃ t, n = .var t x) → WfNode Γ nt n →
    NoNull n ∧ x ∈ nvars n ∧ n.ty.size = (ity (Γ x)).size ∧ nwrites n = [] ∧ (n.ty.kind = .bool → n = .var (ity (Γ x)) x) ∧
      n.isTruth = false ∧
      ∀ σ, ∃ v, neval acc n σ = .ok (v, σ) ∧ (2 : Int) ^ (8 * n.ty.size) ∣ σ x - v := by
    rintro _ x ⟨t, rfl⟩ hw
    simp only [WfNode] at hw
    subst hw
    exact ⟨trivial, by simp [nvars], rfl, rfl, fun _ => rfl, rfl, fun σ => ⟨σ x, rfl, ⟨0, by omega⟩⟩⟩
  intro n
  induction n with
  | cast t e ih =>
    intro x h hw
    rcases skipCast_cases (.cast t e) with ⟨t', e', heq, hs, hb, hk⟩ | hk
    · injection heq with h1 h2
      subst h1 h2
      have hm : memop e = some x := by
        unfold memop at h ⊢
        rw [hk] at h
        exact h
      obtain ⟨i1, i2, i3, i4, i5, i6, i7⟩ := ih x hm hw.2
      refine ⟨i1, i2, by rw [Node.ty, hs, i3], i4, fun hk => absurd hk hb, rfl, fun σ => ?_⟩
      obtain ⟨v, hv, hd⟩ := i7 σ
      refine ⟨conv (cty t) v, by simp only [neval, hv, Res.bind], ?_⟩
      have h2 := conv_dvd' (cty t) v t.size (fun e => hb ((cty_bool t).1 e)) (by rw [cty_width t hb]; exact Nat.le_refl _)
      rw [Node.ty]
      rw [← hs] at hd
      have := Int.dvd_add hd h2
      refine Int.dvd_trans this ⟨1, by omega⟩
    · unfold memop at h
      rw [hk] at h
      cases h
  | var t y =>
    intro x h hw
    have : y = x := by simpa [memop, skipCast] using h
    subst this
    exact hvar _ _ ⟨t, rfl⟩ hw
  | _ => intro x h _; simp [memop, skipCast] at h
where
  conv_dvd' (t : CTy) (v : Int) (k : Nat) (hb : t ≠ .bool) (h : 8 * k ≤ t.width) : (2 : Int) ^ (8 * k) ∣ v - conv t v := by
    have h1 : (2 : Int) ^ t.width ∣ conv t v - v := Int.dvd_of_emod_eq_zero (conv_congr t v hb)
    have h2 := Int.dvd_trans (pow_dvd h) h1
    have := Int.dvd_neg.2 h2
    refine Int.dvd_trans this ⟨1, by omega⟩

end Slimcc
