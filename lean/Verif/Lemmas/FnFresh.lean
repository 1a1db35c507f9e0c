import Verif.Model.Func
import Verif.Lemmas.Labels
/-! Labels in the code of calls. -/
set_option autoImplicit false
namespace Slimcc
open Slimcc.Spec Slimcc.Ty Slimcc.X86 Slimcc.Gen

section
variable (hs : HostShift) (opt : Bool) (Γ : Nat → CTy) (loc : Nat → MemOp) (stk : Nat)

theorem fresh_genExpr (n : Node) : Fresh (genExpr hs opt loc stk n) := gen_fresh _ _ _ _ _ _ _

theorem fresh_assignTo (dst : MemOp) (n : Node) : Fresh (assignTo hs opt loc stk dst n) := by
  unfold assignTo
  dsimp only
  repeat' split
  all_goals first | exact fresh_inss _ | exact fresh_seq (fresh_genExpr hs opt loc stk _) (fresh_inss _) | exact fresh_seq (fresh_inss _) (fresh_tmp (fresh_genExpr hs opt loc stk _))

theorem fresh_argStores (temp : Nat → Int) : ∀ (ns : List Node) (ss : List CC.Slot) (i k : Nat), Fresh (argStores hs opt loc stk temp ns ss i k)
  | [], _, _, _ => fresh_lines _ rfl
  | _ :: _, [], _, _ => fresh_lines _ rfl
  | n :: ns, .onStack o :: ss, i, k => fresh_seq (fresh_assignTo hs opt loc stk _ _) (fresh_argStores temp ns ss _ _)
  | n :: ns, .inRegs :: ss, i, k => by
    refine fresh_seq ?_ (fresh_argStores temp ns ss _ _)
    split
    · exact fresh_assignTo hs opt loc stk _ _
    · exact fresh_lines _ rfl

theorem fresh_placeArg (temp : Int) (k gp : Nat) (n : Node) : Fresh (placeArg hs opt loc stk temp k gp n) := by
  unfold placeArg
  dsimp only
  repeat' split
  all_goals first | exact fresh_inss _ | exact fresh_seq (fresh_genExpr hs opt loc stk _) (fresh_inss _)

theorem fresh_argLoads (temp : Nat → Int) : ∀ (ns : List Node) (ss : List CC.Slot) (i k gp : Nat), Fresh (argLoads hs opt loc stk temp ns ss i k gp)
  | [], _, _, _, _ => fresh_lines _ rfl
  | _ :: _, [], _, _, _ => fresh_lines _ rfl
  | n :: ns, .onStack o :: ss, i, k, gp => fresh_argLoads temp ns ss _ _ _
  | n :: ns, .inRegs :: ss, i, k, gp => fresh_seq (fresh_placeArg hs opt loc stk _ _ _ _) (fresh_argLoads temp ns ss _ _ _)

theorem fresh_argCode (c : Site) (temp : Nat → Int) : Fresh (argCode hs opt Γ loc stk c temp) :=
  fresh_seq (fresh_inss _) (fresh_seq (fresh_argStores hs opt loc stk _ _ _ _ _) (fresh_seq (fresh_argLoads hs opt loc stk _ _ _ _ _ _) (fresh_seq (fresh_inss _) (fresh_inss _))))

theorem fresh_callCode (temp : Nat → Nat → Int) (c : CallS) (rt : Option ITy) : Fresh (callCode hs opt Γ loc stk temp c rt) := by
  intro l
  have h := fresh_argCode hs opt Γ loc stk (siteOf c) (temp c.site) l
  have e : ∀ q : List Ins, labs ((argCode hs opt Γ loc stk (siteOf c) (temp c.site) l).1.code ++ .call c.fn :: q.map .ins) = labs (argCode hs opt Γ loc stk (siteOf c) (temp c.site) l).1.code := by
    intro q
    rw [labs_append, show labs (.call c.fn :: q.map .ins) = labs (q.map .ins) from rfl, labs_ins, List.append_nil]
  refine ⟨h.1, ?_, ?_⟩
  · show (labs ((argCode hs opt Γ loc stk (siteOf c) (temp c.site) l).1.code ++ .call c.fn :: List.map _ _)).Nodup
    rw [e]; exact h.2.1
  · show ∀ x ∈ labs ((argCode hs opt Γ loc stk (siteOf c) (temp c.site) l).1.code ++ .call c.fn :: List.map _ _), _
    rw [e]; exact h.2.2

theorem fresh_callStmt (rets : Nat → CTy) (temp : Nat → Nat → Int) (c : CallS) : Fresh (callStmt hs opt Γ loc stk rets temp c) := by
  unfold callStmt
  split
  · exact fresh_callCode hs opt Γ loc stk temp c _
  · unfold setVar
    have h := fresh_callCode hs opt Γ loc stk temp c (some (ity (rets c.fn)))
    split
    · exact fresh_seq (fresh_seq h (fresh_inss _)) (fresh_inss _)
    · exact fresh_seq (fresh_inss _) (fresh_tmp (fresh_seq h (fresh_inss _)))

end

theorem casesOk_and {K L : CallS → Prop} {Γ : Nat → CTy} : ∀ s : Stmt, s.CasesOk K Γ → s.CasesOk L Γ → s.CasesOk (fun c => K c ∧ L c) Γ
  | .call c, h, h' => ⟨h, h'⟩
  | .seq a b, h, h' => ⟨casesOk_and a h.1 h'.1, casesOk_and b h.2 h'.2⟩
  | .if_ _ a, h, h' => casesOk_and a h h'
  | .ifElse _ a b, h, h' => ⟨casesOk_and a h.1 h'.1, casesOk_and b h.2 h'.2⟩
  | .loop _ _ _ b, h, h' => casesOk_and b h h'
  | .dowhile b _, h, h' => casesOk_and b h h'
  | .switch _ b, h, h' => ⟨h.1, casesOk_and b h.2 h'.2⟩
  | .lab _ s, h, h' => casesOk_and s h h'
  | .expr _, _, _ => trivial
  | .skip, _, _ => trivial
  | .ret _, _, _ => trivial
  | .brk _, _, _ => trivial
  | .cont _, _, _ => trivial
  | .goto _, _, _ => trivial

end Slimcc
