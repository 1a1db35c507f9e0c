import Verif.Model.AddrGen
import Verif.Lemmas.Labels
/-! The labels in the code of designators are new. -/
set_option autoImplicit false
namespace Slimcc.AGen
open Slimcc Slimcc.Spec Slimcc.Ty Slimcc.X86 Slimcc.Gen Slimcc.Addr

section
variable (C : Cfg) (P : ODecls) (loc : Nat → MemOp) (obj : Nat → Int → MemOp) (stk : Nat)

theorem fresh_arithA2 {rec : ANode → G} (h : ∀ n, Fresh (rec n)) (k : ArOp) (op : Alu) (sz : Nat) (l r : ANode) (pass : Nat) (g : G)
    (hg : arithA2 C P loc obj rec k op sz l r pass = some g) : Fresh g := by
  unfold arithA2 at hg
  repeat' split at hg
  all_goals first
    | (injection hg with hg; subst hg; exact fresh_seq (h _) (fresh_inss _))
    | (rw [Option.map_eq_some_iff] at hg; obtain ⟨v, _, rfl⟩ := hg; exact fresh_seq (h _) (fresh_inss _))
    | cases hg

theorem fresh_arithA {rec : ANode → G} (h : ∀ n, Fresh (rec n)) (sz : Nat) (k : ArOp) (a b : ANode) (g : G) (hg : arithA C P loc obj rec sz k a b = some g) : Fresh g := by
  unfold arithA at hg
  split at hg
  · cases hg
  · rename_i op _
    have pass : ∀ i g, ((arithA2 C P loc obj rec k op sz a b i).orElse fun _ => if k = .sub then none else arithA2 C P loc obj rec k op sz b a i) = some g → Fresh g := by
      intro i g hg
      refine fresh_orElse (fun g hg => fresh_arithA2 C P loc obj h k op sz a b i g hg) (fun g hg => ?_) hg
      split at hg
      · cases hg
      · exact fresh_arithA2 C P loc obj h k op sz b a i g hg
    exact fresh_orElse (pass 0) (fun g hg => fresh_orElse (pass 1) (fun g hg => fresh_orElse (pass 2) (pass 3) hg) hg) hg

theorem fresh_loadOptA (n : ANode) (g : G) (hg : loadOptA C P loc obj n = some g) : Fresh g := by
  unfold loadOptA at hg
  repeat' split at hg
  all_goals first
    | (injection hg with hg; subst hg; exact fresh_inss _)
    | cases hg

theorem fresh_boolA {rec : ANode → G} (h : ∀ n, Fresh (rec n)) : ∀ (n : ANode) (g : G), boolA C loc stk rec n = some g → Fresh g := by
  intro n
  have base : ∀ (m : ANode) (g : G), (if m.ty = .int .bool then some (rec m) else none) = some g → Fresh g := by
    intro m g hg
    split at hg
    · injection hg with hg; subst hg; exact h _
    · cases hg
  induction n with
  | cast t a ih => exact fun g hg => ih g hg
  | int t m =>
    intro g hg
    exact fresh_genBoolOpt C.hs C.opt (fun n => gen_fresh _ _ _ _ _ _ _) (fun j l n => gen_fresh _ _ _ _ _ _ _) _ g hg
  | _ => exact fun g hg => base _ g hg

theorem fresh_boolOptA {rec : ANode → G} (h : ∀ n, Fresh (rec n)) (n : ANode) (g : G) (hg : boolOptA C loc stk rec n = some g) : Fresh g := by
  unfold boolOptA at hg
  split at hg
  · exact fresh_boolA C loc stk h _ g hg
  · cases hg

theorem fresh_gpOptA {rec : ANode → G} (h : ∀ n, Fresh (rec n)) (n : ANode) (g : G) (hg : gpOptA C P loc obj rec n = some g) : Fresh g := by
  unfold gpOptA at hg
  split at hg
  · exact fresh_arithA C P loc obj h _ _ _ _ g hg
  · cases hg

theorem fresh_truncOptA {rec : ANode → G} (h : ∀ n, Fresh (rec n)) (n : ANode) (g : G) (hg : truncOptA C P loc obj rec n = some g) : Fresh g := by
  unfold truncOptA at hg
  repeat' split at hg
  all_goals first
    | exact fresh_arithA C P loc obj h _ _ _ _ g hg
    | cases hg

theorem fresh_exprOptA {recE recA : ANode → G} (hE : ∀ n, Fresh (recE n)) (hA : ∀ n, Fresh (recA n)) (n : ANode) (g : G)
    (hg : exprOptA C P loc obj stk recE recA n = some g) : Fresh g := by
  unfold exprOptA at hg
  split at hg
  · injection hg with hg; subst hg; exact fresh_inss _
  split at hg
  · rename_i hl; injection hg with hg; subst hg; exact fresh_loadOptA C P loc obj n _ hl
  split at hg
  · injection hg with hg; subst hg; exact fresh_inss _
  split at hg
  · rename_i hl; injection hg with hg; subst hg; exact fresh_boolOptA C loc stk hE n _ hl
  split at hg
  · rename_i hl
    injection hg with hg; subst hg
    split at hl
    · exact fresh_gpOptA C P loc obj hE n _ hl
    · cases hl
  split at hg
  · rename_i hl; injection hg with hg; subst hg; exact fresh_truncOptA C P loc obj hE n _ hl
  split at hg
  · injection hg with hg; subst hg; exact fresh_inss _
  split at hg
  · injection hg with hg; subst hg; exact fresh_seq (hE _) (fresh_inss _)
  · injection hg with hg; subst hg; exact fresh_seq (hA _) (fresh_inss _)
  · cases hg

theorem fresh_exprPlainA {recE recA : ANode → G} (hE : ∀ n, Fresh (recE n)) (hA : ∀ n, Fresh (recA n)) (n : ANode) :
    Fresh (exprPlainA C P loc stk recE recA n) := by
  unfold exprPlainA
  split
  · exact gen_fresh _ _ _ _ _ _ _
  all_goals first
    | exact fresh_seq (hA _) (fresh_inss _)
    | exact fresh_seq (hE _) (fresh_inss _)
    | exact hA _
    | exact fresh_seq (hE _) (fresh_tmp (hE _))

theorem genA_fresh : ∀ (f : Nat) (k : AMode) (n : ANode), Fresh (genA C P loc obj stk f k n) := by
  intro f
  induction f with
  | zero => intro k n; rw [genA.eq_def]; exact fresh_lines _ rfl
  | succ f ih =>
    intro k n
    rw [genA.eq_def]
    cases k with
    | expr =>
      dsimp only
      split
      · exact gen_fresh _ _ _ _ _ _ _
      · split
        · rename_i hg
          split at hg
          · exact fresh_exprOptA C P loc obj stk (ih .expr) (ih .addr) _ _ hg
          · cases hg
        · exact fresh_exprPlainA C P loc stk (ih .expr) (ih .addr) _
    | addr =>
      dsimp only
      split
      · rename_i hg
        split at hg
        · unfold addrOptA at hg
          split at hg
          · injection hg with hg; subst hg; exact fresh_inss _
          split at hg
          · injection hg with hg; subst hg; exact fresh_seq (ih _ _) (fresh_inss _)
          · injection hg with hg; subst hg; exact fresh_seq (ih _ _) (fresh_inss _)
          · cases hg
        · cases hg
      · unfold addrPlainA
        split
        · exact fresh_inss _
        · exact ih _ _
        · exact fresh_seq (ih _ _) (fresh_inss _)
        · exact fresh_lines _ rfl

theorem genAssign_fresh (l r : ANode) : Fresh (genAssign C P loc obj stk l r) := by
  unfold genAssign
  split
  · exact fresh_seq (genA_fresh _ _ _ _ _ _ _ _) (fresh_inss _)
  · exact fresh_seq (genA_fresh _ _ _ _ _ _ _ _) (fresh_tmp (genA_fresh _ _ _ _ _ _ _ _))

end
end Slimcc.AGen
