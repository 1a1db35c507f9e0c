import Verif.Lemmas.BuildOk
/-! Trees without variables always have a value if the expression has one. -/
set_option autoImplicit false
namespace Slimcc
open Slimcc.Spec Slimcc.Spec.CTy Slimcc.Ty

/-- Nothing in the tree refers to the state. -/
def ConstNode : Node → Prop
  | .num _ _ => True
  | .null _ => False
  | .var _ _ => False
  | .cast _ e => ConstNode e
  | .un _ _ e => ConstNode e
  | .not e => ConstNode e
  | .bin _ _ a b => ConstNode a ∧ ConstNode b
  | .shift _ _ a b => ConstNode a ∧ ConstNode b
  | .cmp _ a b => ConstNode a ∧ ConstNode b
  | .logand a b => ConstNode a ∧ ConstNode b
  | .logor a b => ConstNode a ∧ ConstNode b
  | .cond _ c a b => ConstNode c ∧ ConstNode a ∧ ConstNode b
  | .comma a b => ConstNode a ∧ ConstNode b
  | .assign _ _ _ => False
  | .arithAssign _ _ _ _ => False
  | .postIncDec _ _ _ => False

section
variable {Γ : Nat → CTy} (hs : HostShift) (opt : Bool)

theorem const_newCast (n : Node) (t : ITy) (h : ConstNode n) : ConstNode (newCast hs opt n t) := by
  unfold newCast
  repeat' split
  all_goals first
    | exact h
    | trivial
    | skip
  rename_i e hra
  obtain ⟨t2, rfl, _⟩ := redundantArg_some n e t hra
  exact h

theorem const_intPromo (n : Node) (h : ConstNode n) : ConstNode (intPromo hs opt n) := by
  unfold intPromo; split
  · exact const_newCast hs opt _ _ h
  · exact h

theorem const_condCast (n : Node) (h : ConstNode n) : ConstNode (condCast hs opt n) := by
  unfold condCast; split
  · exact h
  · exact const_newCast hs opt _ _ h

theorem const_usual (a b : Node) (ha : ConstNode a) (hb : ConstNode b) :
    ConstNode (usualConv hs opt a b).1 ∧ ConstNode (usualConv hs opt a b).2 :=
  ⟨const_newCast hs opt _ _ (const_intPromo hs opt _ ha), const_newCast hs opt _ _ (const_intPromo hs opt _ hb)⟩

theorem const_mkArith (k : AKind) (a b : Node) (ha : ConstNode a) (hb : ConstNode b) : ConstNode (mkArith hs opt k a b) := by
  cases k
  · exact const_usual hs opt a b ha hb
  · exact ⟨const_intPromo hs opt _ ha, hb⟩

theorem const_build : ∀ e : Expr, e.Constant → ConstNode (build hs opt Γ e)
  | .num _ _, _ => trivial
  | .var _, h => h.elim
  | .cast _ e, h => const_newCast hs opt _ _ (const_build e h)
  | .un _ e, h => const_intPromo hs opt _ (const_build e h)
  | .lnot e, h => const_condCast hs opt _ (const_build e h)
  | .bin _ a b, h => const_mkArith hs opt _ _ _ (const_build a h.1) (const_build b h.2)
  | .cmp _ a b, h => const_usual hs opt _ _ (const_build a h.1) (const_build b h.2)
  | .land a b, h => ⟨const_condCast hs opt _ (const_build a h.1), const_condCast hs opt _ (const_build b h.2)⟩
  | .lor a b, h => ⟨const_condCast hs opt _ (const_build a h.1), const_condCast hs opt _ (const_build b h.2)⟩
  | .cond c a b, h => ⟨const_condCast hs opt _ (const_build c h.1), const_usual hs opt _ _ (const_build a h.2.1) (const_build b h.2.2)⟩
  | .comma a b, h => ⟨const_build a h.1, const_build b h.2⟩
  | .assign _ _, h => h.elim
  | .opAssign _ _ _, h => h.elim
  | .incr _ _ _, h => h.elim

variable {nt : ITy} {acc : Int} (hacc : InRange (cty nt) acc)

include hacc in
theorem const_ok (n : Node) (σ : Store) (hσ : StoreOk Γ σ) : WfNode Γ nt n → ConstNode n → ∀ (v : Int) (σ' : Store),
    neval acc n σ = .ok (v, σ') → evalNode hs n = .ok (BitVec.ofInt 64 v) ∧ σ' = σ := by
  have fin : ∀ (n : Node) (v : Int) (σ' : Store), WfNode Γ nt n → neval acc n σ = .ok (v, σ') → evalNode hs n ≠ .error →
      evalNode hs n = .ok (BitVec.ofInt 64 v) ∧ σ' = σ := by
    intro n v σ' hw he hne
    have ag := evalNode_agrees hs hacc n σ hw hσ
    rw [he] at ag
    rcases ag with ag | ag
    · exact (hne ag).elim
    · exact ag
  induction n with
  | num t x => intro hwf _ v σ' he; exact fin _ v σ' hwf he (by simp [evalNode])
  | null t => intro _ h; exact h.elim
  | var t x => intro _ h; exact h.elim
  | cast t e ih =>
    intro hwf hc v σ' he
    apply fin _ v σ' hwf he
    simp only [neval, bind_ok_iff] at he
    obtain ⟨p, h1, _⟩ := he
    simp [evalNode, (ih hwf.2 hc p.1 p.2 h1).1]
  | un op t e ih =>
    intro hwf hc v σ' he
    apply fin _ v σ' hwf he
    simp only [neval, bind_ok_iff] at he
    obtain ⟨p, h1, _⟩ := he
    cases op <;> simp [evalNode, (ih hwf.2.2 hc p.1 p.2 h1).1]
  | not e ih =>
    intro hwf hc v σ' he
    apply fin _ v σ' hwf he
    simp only [neval, bind_ok_iff] at he
    obtain ⟨p, h1, _⟩ := he
    simp [evalNode, (ih hwf.2 hc p.1 p.2 h1).1]
  | bin op t a b iha ihb =>
    intro hwf hc v σ' he
    apply fin _ v σ' hwf he
    obtain ⟨hta, htb, hsz, wa, wb⟩ := hwf
    simp only [neval, bind_ok_iff] at he
    obtain ⟨p, h1, q, h2, r, h3, _⟩ := he
    obtain ⟨i1, i2⟩ := iha wa hc.1 p.1 p.2 h1
    rw [i2] at h2
    obtain ⟨j1, j2⟩ := ihb wb hc.2 q.1 q.2 h2
    have ra := (neval_range hacc a σ wa hσ p.1 p.2 h1).1
    have rb := (neval_range hacc b σ wb hσ q.1 q.2 h2).1
    have hw : t.wf = true := by have := wf_ty a wa; rwa [hta] at this
    rw [hta] at ra; rw [htb] at rb
    have m := evalBin_meets op t p.1 q.1 hw hsz ra rb
    rw [h3] at m
    simp [evalNode, i1, j1, show evalBin op t _ _ = _ from m]
  | shift k t a b iha ihb =>
    intro hwf hc v σ' he
    apply fin _ v σ' hwf he
    obtain ⟨hta, hsz, wa, wb⟩ := hwf
    simp only [neval, bind_ok_iff] at he
    obtain ⟨p, h1, q, h2, r, h3, _⟩ := he
    obtain ⟨i1, i2⟩ := iha wa hc.1 p.1 p.2 h1
    rw [i2] at h2
    obtain ⟨j1, j2⟩ := ihb wb hc.2 q.1 q.2 h2
    simp [evalNode, i1, j1]
  | cmp op a b iha ihb =>
    intro hwf hc v σ' he
    apply fin _ v σ' hwf he
    obtain ⟨hta, hsz, wa, wb⟩ := hwf
    simp only [neval, bind_ok_iff] at he
    obtain ⟨p, h1, q, h2, _⟩ := he
    obtain ⟨i1, i2⟩ := iha wa hc.1 p.1 p.2 h1
    rw [i2] at h2
    obtain ⟨j1, j2⟩ := ihb wb hc.2 q.1 q.2 h2
    simp [evalNode, i1, j1]
  | logand a b iha ihb =>
    intro hwf hc v σ' he
    apply fin _ v σ' hwf he
    obtain ⟨_, _, wa, wb⟩ := hwf
    simp only [neval, bind_ok_iff] at he
    obtain ⟨p, h1, h2⟩ := he
    obtain ⟨i1, i2⟩ := iha wa hc.1 p.1 p.2 h1
    have ra := (neval_range hacc a σ wa hσ p.1 p.2 h1).1
    have z := ofInt_zero_iff a.ty p.1 (wf_ty a wa) ra
    simp only [evalNode, i1, Outcome.bind_ok]
    split at h2
    · rename_i h0; rw [if_pos (z.2 h0)]; simp
    · rename_i h0
      rw [if_neg (fun e => h0 (z.1 e))]
      rw [i2, bind_ok_iff] at h2
      obtain ⟨q, h2, _⟩ := h2
      simp [(ihb wb hc.2 q.1 q.2 h2).1]
  | logor a b iha ihb =>
    intro hwf hc v σ' he
    apply fin _ v σ' hwf he
    obtain ⟨_, _, wa, wb⟩ := hwf
    simp only [neval, bind_ok_iff] at he
    obtain ⟨p, h1, h2⟩ := he
    obtain ⟨i1, i2⟩ := iha wa hc.1 p.1 p.2 h1
    have ra := (neval_range hacc a σ wa hσ p.1 p.2 h1).1
    have z := ofInt_zero_iff a.ty p.1 (wf_ty a wa) ra
    simp only [evalNode, i1, Outcome.bind_ok]
    split at h2
    · rename_i h0; rw [if_pos (fun e => h0 (z.1 e))]; simp
    · rename_i h0
      rw [if_neg (fun e => h0 (fun e' => e (z.2 e')))]
      rw [i2, bind_ok_iff] at h2
      obtain ⟨q, h2, _⟩ := h2
      simp [(ihb wb hc.2 q.1 q.2 h2).1]
  | cond t c a b ihc iha ihb =>
    intro hwf hc v σ' he
    apply fin _ v σ' hwf he
    obtain ⟨_, _, _, _, wc, wa, wb⟩ := hwf
    simp only [neval, bind_ok_iff] at he
    obtain ⟨p, h1, h2⟩ := he
    obtain ⟨i1, i2⟩ := ihc wc hc.1 p.1 p.2 h1
    have ra := (neval_range hacc c σ wc hσ p.1 p.2 h1).1
    have z := ofInt_zero_iff c.ty p.1 (wf_ty c wc) ra
    simp only [evalNode, i1, Outcome.bind_ok]
    rw [i2] at h2
    split at h2
    · rename_i h0; rw [if_pos (fun e => h0 (z.1 e)), (iha wa hc.2.1 v σ' h2).1]; simp
    · rename_i h0
      rw [if_neg (fun e => h0 (fun e' => e (z.2 e'))), (ihb wb hc.2.2 v σ' h2).1]; simp
  | comma a b iha ihb =>
    intro hwf hc v σ' he
    apply fin _ v σ' hwf he
    simp only [neval, bind_ok_iff] at he
    obtain ⟨p, h1, h2⟩ := he
    obtain ⟨i1, i2⟩ := iha hwf.1 hc.1 p.1 p.2 h1
    rw [i2] at h2
    have j := (ihb hwf.2 hc.2 v σ' h2).1
    simp only [evalNode]
    split
    · rw [j]; simp
    · rw [i1, j]; simp
  | assign t x r ih => intro _ h; exact h.elim
  | arithAssign k t x r ih => intro _ h; exact h.elim
  | postIncDec t x r ih => intro _ h; exact h.elim

end
end Slimcc
