import Verif.Lemmas.StmtParse
/-! The code generated for a parsed statement is the code of the statement. -/
set_option autoImplicit false
namespace Slimcc
open Slimcc.Spec Slimcc.Spec.CTy Slimcc.Ty Slimcc.X86 Slimcc.Gen

def toJ (j : JX) : JumpCtx := ⟨j.sw.map (·.1), j.names, j.brk, j.cont⟩

theorem activeSwitch_toJ : ∀ ctx : List JX, activeSwitch (ctx.map toJ) = (actSw ctx).map (·.1)
  | [] => rfl
  | ⟨none, _, _, _⟩ :: l => activeSwitch_toJ l
  | ⟨some _, _, _, _⟩ :: _ => rfl

theorem resolveJump_toJ (isCont : Bool) (n : Option Nat) : ∀ ctx : List JX, resolveJump isCont n (ctx.map toJ) = (jumpTo isCont n ctx).map toJ
  | [] => rfl
  | j :: l => by
    have e : (toJ j).sw.isSome = j.sw.isSome := by simp [toJ]
    simp only [List.map_cons, resolveJump, jumpTo, e]
    split
    · exact resolveJump_toJ isCont n l
    · cases n with
      | none => rfl
      | some x =>
        have hn : named (some x) j.names = (toJ j).names.contains x := rfl
        dsimp only
        rw [hn]
        split
        · rfl
        · exact resolveJump_toJ isCont _ l

theorem mem_userNames {m : Nat} : ∀ {ls : List Lbl}, .user m ∈ ls → m ∈ userNames ls
  | y :: ls, hm => by
    rcases List.mem_cons.1 hm with rfl | hx
    · exact List.mem_cons_self ..
    · cases y with
      | user k => exact List.mem_cons_of_mem _ (mem_userNames hx)
      | case _ _ => exact (mem_userNames hx : m ∈ userNames ls)
      | dflt => exact (mem_userNames hx : m ∈ userNames ls)

theorem codeAt_seq (P : List Line) (pc : Nat) (a b : G) (c : Nat) : CodeAt P pc ((a ;; b) c).1.code ↔
    CodeAt P pc (a c).1.code ∧ CodeAt P (pc + (a c).1.code.length) (b (a c).2).1.code := by
  show CodeAt P pc ((a c).1.code ++ (b (a c).2).1.code) ↔ _
  rw [codeAt_append]

theorem len_seq (a b : G) (c : Nat) : ((a ;; b) c).1.code.length = (a c).1.code.length + (b (a c).2).1.code.length := List.length_append

theorem st_seq (a b : G) (c K : Nat) : ((a ;; b) c).1.st ≤ K ↔ (a c).1.st ≤ K ∧ (b (a c).2).1.st ≤ K := by
  show max _ _ ≤ K ↔ _
  exact Nat.max_le

theorem lines_eq (l : List Line) (c : Nat) : lines l c = (⟨l, 0, 0⟩, c) := rfl

theorem codeAt_one (P : List Line) (pc : Nat) (x : Line) : CodeAt P pc [x] ↔ P[pc]? = some x := by
  rw [codeAt_cons]
  exact ⟨fun h => h.1, fun h => ⟨h, fun i hi => by cases hi⟩⟩

theorem codeAt_two (P : List Line) (pc : Nat) (x y : Line) : CodeAt P pc [x, y] ↔ P[pc]? = some x ∧ P[pc + 1]? = some y := by
  rw [codeAt_cons, codeAt_one]

/-- What holds at the end of the function, for a statement after which the parser's state is `p`. -/
structure Final (X : Cx) (ctx : List JX) (p : PSt) : Prop where
  sw : ∀ t cs d, actSw ctx = some (t, cs, d) → CaseInv t p.cases ∧ (∀ u v, Cov t p.cases u v → Cov t cs u v) ∧ (∀ u, p.dflt = some u → d = some u)
  user : ∀ x ∈ p.labels, ∀ n ∈ x.1, X.lm n = some x.2

section
variable {X : Cx} (L : List (List Nat × Nat)) (hL : ∀ n, lookupLabel L n = X.lm n)

/-- Back from the end of a statement to its beginning. -/
theorem Final.back {ctx : List JX} {p p' : PSt} {s : Stmt} {nm : List Nat} {n : SNode} (h : Final X ctx p') (hp : parseStmt X.opt X.E.Γ s nm (ctx.map toJ) p = some (n, p'))
    (hI : ∀ t cs d, actSw ctx = some (t, cs, d) → CaseInv t p.cases) : Final X ctx p := by
  obtain ⟨g, l, e, _⟩ := parse_ok _ _ _ _ _ _ _ _ hp
  refine ⟨fun t cs d ha => ?_, fun x hx => h.user x (by rw [e]; exact List.mem_append_right _ hx)⟩
  obtain ⟨_, f1, f2⟩ := h.sw t cs d ha
  have gg := g t (by rw [activeSwitch_toJ, ha]; rfl)
  exact ⟨hI t cs d ha, fun u v c => f1 u v (gg.mono (hI t cs d ha) u v c), fun u e => f2 u (gg.dmono u e)⟩

theorem inv_next {ctx : List JX} {p p' : PSt} {s : Stmt} {nm : List Nat} {n : SNode} (hp : parseStmt X.opt X.E.Γ s nm (ctx.map toJ) p = some (n, p'))
    (hI : ∀ t cs d, actSw ctx = some (t, cs, d) → CaseInv t p.cases) : ∀ t cs d, actSw ctx = some (t, cs, d) → CaseInv t p'.cases := by
  intro t cs d ha
  obtain ⟨g, _⟩ := parse_ok _ _ _ _ _ _ _ _ hp
  exact (g t (by rw [activeSwitch_toJ, ha]; rfl)).inv (hI t cs d ha)

theorem eok_cast {e : Expr} (h : EOk X e) (t : CTy) : EOk X (.cast t e) := ⟨h.1, h.2.1, h.2.2⟩

theorem optVoidAt_of {o : Option Expr} {pc c : Nat} (he : ∀ e ∈ o.toList, EOk X e) (h : CodeAt X.P pc (optVoid X.hs X.opt X.E.Γ X.E.loc X.E.stk o c).1.code)
    (hK : (optVoid X.hs X.opt X.E.Γ X.E.loc X.E.stk o c).1.st ≤ X.E.K) : OptVoidAt X pc o (pc + (optVoid X.hs X.opt X.E.Γ X.E.loc X.E.stk o c).1.code.length) := by
  cases o with
  | none => rfl
  | some e => exact ⟨he e (by simp), c, h, hK, rfl⟩

include hL in
theorem at_of : ∀ (s : Stmt) (nm : List Nat) (ctx : List JX) (p : PSt) (n : SNode) (p' : PSt) (n' : SNode) (c pc : Nat),
    parseStmt X.opt X.E.Γ s nm (ctx.map toJ) p = some (n, p') → resolve L n = some n' → (∀ e ∈ s.exprs, EOk X e) → s.CasesOk X.rule X.E.Γ →
    CodeAt X.P pc (genStmt X.hs X.opt X.E.Γ X.E.loc X.E.stk X.cc X.rty X.rtn n' c).1.code → (genStmt X.hs X.opt X.E.Γ X.E.loc X.E.stk X.cc X.rty X.rtn n' c).1.st ≤ X.E.K →
    (∀ t cs d, actSw ctx = some (t, cs, d) → CaseInv t p.cases) → Final X ctx p' →
    At X ctx nm s pc (pc + (genStmt X.hs X.opt X.E.Γ X.E.loc X.E.stk X.cc X.rty X.rtn n' c).1.code.length)
  | .skip, nm, ctx, p, n, p', n', c, pc, hp, hr, he, hc, hC, hK, hI, hF => by
    simp only [parseStmt, Option.some.injEq, Prod.mk.injEq] at hp
    obtain ⟨rfl, rfl⟩ := hp
    injection hr with hr; subst hr
    exact .skip
  | .expr e, nm, ctx, p, n, p', n', c, pc, hp, hr, he, hc, hC, hK, hI, hF => by
    simp only [parseStmt, Option.some.injEq, Prod.mk.injEq] at hp
    obtain ⟨rfl, rfl⟩ := hp
    injection hr with hr; subst hr
    exact .expr ⟨he e (by simp [Stmt.exprs]), c, hC, hK, rfl⟩
  | .call k, nm, ctx, p, n, p', n', c, pc, hp, hr, he, hc, hC, hK, hI, hF => by
    simp only [parseStmt, Option.some.injEq, Prod.mk.injEq] at hp
    obtain ⟨rfl, rfl⟩ := hp
    injection hr with hr; subst hr
    refine .call ⟨⟨fun a ha => he a.e (by simp only [Stmt.exprs, List.mem_append, List.mem_map]; exact Or.inl ⟨a, ha, rfl⟩), hc, fun x hx => ?_⟩, c, hC, hK, rfl⟩
    exact (he (.var x) (by simp [Stmt.exprs, hx])).2.1 x (by simp [Expr.vars])
  | .goto x, nm, ctx, p, n, p', n', c, pc, hp, hr, he, hc, hC, hK, hI, hF => by
    simp only [parseStmt, Option.some.injEq, Prod.mk.injEq] at hp
    obtain ⟨rfl, rfl⟩ := hp
    simp only [resolve] at hr
    obtain ⟨u, hu, rfl⟩ := Option.map_eq_some_iff.1 hr
    simp only [genStmt, lines_eq, codeAt_one] at hC ⊢
    rw [hL] at hu
    exact .goto hu hC
  | .ret none, nm, ctx, p, n, p', n', c, pc, hp, hr, he, hc, hC, hK, hI, hF => by
    simp only [parseStmt, Option.some.injEq, Prod.mk.injEq] at hp
    obtain ⟨rfl, rfl⟩ := hp
    injection hr with hr; subst hr
    simp only [genStmt, lines_eq, codeAt_one] at hC ⊢
    exact .ret hC
  | .ret (some e), nm, ctx, p, n, p', n', c, pc, hp, hr, he, hc, hC, hK, hI, hF => by
    simp only [parseStmt, Option.some.injEq, Prod.mk.injEq] at hp
    obtain ⟨rfl, rfl⟩ := hp
    injection hr with hr; subst hr
    simp only [genStmt] at hC hK ⊢
    rw [codeAt_seq] at hC
    rw [st_seq] at hK
    rw [len_seq, ← Nat.add_assoc]
    exact .retv ⟨eok_cast (he e (by simp [Stmt.exprs])) _, c, hC.1, hK.1, rfl⟩ ((codeAt_one _ _ _).1 hC.2)
  | .brk x, nm, ctx, p, n, p', n', c, pc, hp, hr, he, hc, hC, hK, hI, hF => by
    simp only [parseStmt, Option.bind_eq_bind] at hp
    obtain ⟨j, hj, hp⟩ := Option.bind_eq_some_iff.1 hp
    simp only [Option.some.injEq, Prod.mk.injEq] at hp
    obtain ⟨rfl, rfl⟩ := hp
    injection hr with hr; subst hr
    rw [resolveJump_toJ] at hj
    obtain ⟨j', hj', rfl⟩ := Option.map_eq_some_iff.1 hj
    simp only [genStmt, lines_eq, codeAt_one] at hC ⊢
    exact .brk hj' hC
  | .cont x, nm, ctx, p, n, p', n', c, pc, hp, hr, he, hc, hC, hK, hI, hF => by
    simp only [parseStmt, Option.bind_eq_bind] at hp
    obtain ⟨j, hj, hp⟩ := Option.bind_eq_some_iff.1 hp
    simp only [Option.some.injEq, Prod.mk.injEq] at hp
    obtain ⟨rfl, rfl⟩ := hp
    injection hr with hr; subst hr
    rw [resolveJump_toJ] at hj
    obtain ⟨j', hj', rfl⟩ := Option.map_eq_some_iff.1 hj
    simp only [genStmt, lines_eq, codeAt_one] at hC ⊢
    exact .cont hj' hC
  | .seq a b, nm, ctx, p, n, p', n', c, pc, hp, hr, he, hc, hC, hK, hI, hF => by
    simp only [parseStmt, Option.bind_eq_bind] at hp
    obtain ⟨⟨na, q⟩, ha, hp⟩ := Option.bind_eq_some_iff.1 hp
    obtain ⟨⟨nb, r⟩, hb, hp⟩ := Option.bind_eq_some_iff.1 hp
    simp only [Option.some.injEq, Prod.mk.injEq] at hp
    obtain ⟨rfl, rfl⟩ := hp
    simp only [resolve, Option.bind_eq_bind] at hr
    obtain ⟨na', hra, hr⟩ := Option.bind_eq_some_iff.1 hr
    obtain ⟨nb', hrb, hr⟩ := Option.bind_eq_some_iff.1 hr
    injection hr with hr; subst hr
    simp only [genStmt] at hC hK ⊢
    rw [codeAt_seq] at hC
    rw [st_seq] at hK
    rw [len_seq, ← Nat.add_assoc]
    have hI' := inv_next ha hI
    exact .seq (at_of a _ _ _ _ _ _ _ _ ha hra (fun e h => he e (List.mem_append_left _ h)) hc.1 hC.1 hK.1 hI (hF.back hb hI'))
      (at_of b _ _ _ _ _ _ _ _ hb hrb (fun e h => he e (List.mem_append_right _ h)) hc.2 hC.2 hK.2 hI' hF)
  | .if_ cnd a, nm, ctx, p, n, p', n', c, pc, hp, hr, he, hc, hC, hK, hI, hF => by
    simp only [parseStmt, Option.bind_eq_bind] at hp
    obtain ⟨⟨na, q⟩, ha, hp⟩ := Option.bind_eq_some_iff.1 hp
    simp only [Option.some.injEq, Prod.mk.injEq] at hp
    obtain ⟨rfl, rfl⟩ := hp
    simp only [resolve, Option.bind_eq_bind] at hr
    obtain ⟨na', hra, hr⟩ := Option.bind_eq_some_iff.1 hr
    injection hr with hr; subst hr
    simp only [genStmt, withLabel] at hC hK ⊢
    simp only [codeAt_seq, lines_eq, codeAt_one] at hC
    simp only [st_seq] at hK
    simp only [len_seq, lines_eq, List.length_singleton, ← Nat.add_assoc]
    exact .if_ ⟨he _ (by simp [Stmt.exprs]), _, hC.1, hK.1, rfl⟩
      (at_of a _ _ _ _ _ _ _ _ ha hra (fun e h => he e (List.mem_cons_of_mem _ h)) hc hC.2.1 hK.2.1 hI hF) hC.2.2
  | .ifElse cnd a b, nm, ctx, p, n, p', n', c, pc, hp, hr, he, hc, hC, hK, hI, hF => by
    simp only [parseStmt, Option.bind_eq_bind] at hp
    obtain ⟨⟨na, q⟩, ha, hp⟩ := Option.bind_eq_some_iff.1 hp
    obtain ⟨⟨nb, r⟩, hb, hp⟩ := Option.bind_eq_some_iff.1 hp
    simp only [Option.some.injEq, Prod.mk.injEq] at hp
    obtain ⟨rfl, rfl⟩ := hp
    simp only [resolve, Option.bind_eq_bind] at hr
    obtain ⟨na', hra, hr⟩ := Option.bind_eq_some_iff.1 hr
    obtain ⟨nb', hrb, hr⟩ := Option.bind_eq_some_iff.1 hr
    injection hr with hr; subst hr
    simp only [genStmt, withLabel] at hC hK ⊢
    simp only [codeAt_seq, lines_eq, codeAt_one, codeAt_two, List.length_cons, List.length_nil] at hC
    simp only [st_seq] at hK
    simp only [len_seq, lines_eq, List.length_cons, List.length_nil, ← Nat.add_assoc]
    have hI' := inv_next ha hI
    exact .ifElse ⟨he _ (by simp [Stmt.exprs]), _, hC.1, hK.1, rfl⟩
      (at_of a _ _ _ _ _ _ _ _ ha hra (fun e h => he e (List.mem_cons_of_mem _ (List.mem_append_left _ h))) hc.1 hC.2.1 hK.2.1 hI (hF.back hb hI'))
      hC.2.2.1.1 hC.2.2.1.2
      (at_of b _ _ _ _ _ _ _ _ hb hrb (fun e h => he e (List.mem_cons_of_mem _ (List.mem_append_right _ h))) hc.2 hC.2.2.2.1 hK.2.2.2.1 hI' hF)
      hC.2.2.2.2
  | .loop i cnd x b, nm, ctx, p, n, p', n', c, pc, hp, hr, he, hc, hC, hK, hI, hF => by
    simp only [parseStmt, Option.bind_eq_bind] at hp
    obtain ⟨⟨nb, q⟩, hb, hp⟩ := Option.bind_eq_some_iff.1 hp
    simp only [Option.some.injEq, Prod.mk.injEq] at hp
    obtain ⟨rfl, rfl⟩ := hp
    simp only [resolve, Option.bind_eq_bind] at hr
    obtain ⟨nb', hrb, hr⟩ := Option.bind_eq_some_iff.1 hr
    injection hr with hr; subst hr
    simp only [genStmt, withLabel] at hC hK ⊢
    simp only [codeAt_seq, lines_eq, codeAt_one, codeAt_two, List.length_cons, List.length_nil] at hC
    simp only [st_seq] at hK
    simp only [len_seq, lines_eq, List.length_cons, List.length_nil, ← Nat.add_assoc]
    have hF' : Final X (⟨none, nm, p.id, p.id + 1⟩ :: ctx) q := ⟨hF.sw, hF.user⟩
    refine .loop (optVoidAt_of (fun e h => he e (by simp only [Stmt.exprs, List.mem_append]; exact Or.inl (Or.inl (Or.inl h)))) hC.1 hK.1)
      hC.2.1 ?_ (at_of b [] (⟨none, nm, p.id, p.id + 1⟩ :: ctx) _ _ _ _ _ _ hb hrb (fun e h => he e (by simp only [Stmt.exprs, List.mem_append]; exact Or.inr h)) hc hC.2.2.2.1 hK.2.2.2.1 hI hF')
      hC.2.2.2.2.1 (optVoidAt_of (fun e h => he e (by simp only [Stmt.exprs, List.mem_append]; exact Or.inl (Or.inr h))) hC.2.2.2.2.2.1 hK.2.2.2.2.2.1)
      hC.2.2.2.2.2.2.1 hC.2.2.2.2.2.2.2
    cases cnd with
    | none => rfl
    | some cnd => exact ⟨he _ (by simp [Stmt.exprs]), _, hC.2.2.1, hK.2.2.1, rfl⟩
  | .dowhile b cnd, nm, ctx, p, n, p', n', c, pc, hp, hr, he, hc, hC, hK, hI, hF => by
    simp only [parseStmt, Option.bind_eq_bind] at hp
    obtain ⟨⟨nb, q⟩, hb, hp⟩ := Option.bind_eq_some_iff.1 hp
    simp only [Option.some.injEq, Prod.mk.injEq] at hp
    obtain ⟨rfl, rfl⟩ := hp
    simp only [resolve, Option.bind_eq_bind] at hr
    obtain ⟨nb', hrb, hr⟩ := Option.bind_eq_some_iff.1 hr
    injection hr with hr; subst hr
    simp only [genStmt, withLabel] at hC hK ⊢
    simp only [codeAt_seq, lines_eq, codeAt_one, codeAt_two, List.length_cons, List.length_nil] at hC
    simp only [st_seq] at hK
    simp only [len_seq, lines_eq, List.length_cons, List.length_nil, ← Nat.add_assoc]
    have hF' : Final X (⟨none, nm, p.id, p.id + 1⟩ :: ctx) q := ⟨hF.sw, hF.user⟩
    exact .dowhile hC.1 (at_of b [] (⟨none, nm, p.id, p.id + 1⟩ :: ctx) _ _ _ _ _ _ hb hrb (fun e h => he e (by simp only [Stmt.exprs, List.mem_append]; exact Or.inl h)) hc hC.2.1 hK.2.1 hI hF')
      hC.2.2.1 ⟨he _ (by simp [Stmt.exprs]), _, hC.2.2.2.1, hK.2.2.2.1, rfl⟩ hC.2.2.2.2
  | .switch e b, nm, ctx, p, n, p', n', c, pc, hp, hr, he, hc, hC, hK, hI, hF => by
    simp only [parseStmt, Option.bind_eq_bind] at hp
    obtain ⟨⟨nb, q⟩, hb, hp⟩ := Option.bind_eq_some_iff.1 hp
    simp only [Option.some.injEq, Prod.mk.injEq] at hp
    obtain ⟨rfl, rfl⟩ := hp
    simp only [resolve, Option.bind_eq_bind] at hr
    obtain ⟨nb', hrb, hr⟩ := Option.bind_eq_some_iff.1 hr
    injection hr with hr; subst hr
    simp only [genStmt] at hC hK ⊢
    simp only [codeAt_seq, lines_eq, codeAt_one] at hC
    simp only [st_seq] at hK
    simp only [len_seq, lines_eq, List.length_singleton, ← Nat.add_assoc]
    have hb' : parseStmt X.opt X.E.Γ b [] ((⟨some (ity (e.ty X.E.Γ), q.cases, q.dflt), nm, p.id, 0⟩ :: ctx : List JX).map toJ) ⟨p.id + 1, p.labels, [], none⟩ = some (nb, q) := hb
    have g := (parse_ok _ _ _ _ _ _ _ _ hb).1 (ity (e.ty X.E.Γ)) rfl
    have i0 := caseInv_nil (ity (e.ty X.E.Γ))
    have hF' : Final X (⟨some (ity (e.ty X.E.Γ), q.cases, q.dflt), nm, p.id, 0⟩ :: ctx) q := by
      refine ⟨fun t cs d h => ?_, hF.user⟩
      simp only [actSw, Option.some.injEq, Prod.mk.injEq] at h
      obtain ⟨rfl, rfl, rfl⟩ := h
      exact ⟨g.inv i0, fun _ _ h => h, fun _ h => h⟩
    have hI' : ∀ t cs d, actSw (⟨some (ity (e.ty X.E.Γ), q.cases, q.dflt), nm, p.id, 0⟩ :: ctx) = some (t, cs, d) → CaseInv t (⟨p.id + 1, p.labels, [], none⟩ : PSt).cases := by
      intro t cs d h
      exact caseInv_nil t
    refine .switch ⟨he _ (by simp [Stmt.exprs]), _, hC.1, hK.1, rfl⟩ hC.2.1 rfl ⟨g.inv i0, fun u v h => ?_, fun u h => ?_, g.ord i0, hc.1⟩
      (at_of b _ _ _ _ _ _ _ _ hb' hrb (fun e h => he e (List.mem_cons_of_mem _ h)) hc.2 hC.2.2.1 hK.2.2.1 hI' hF') hC.2.2.2
    · rcases g.org i0 u v h with ⟨i, cr, h, _⟩ | h
      · simp at h
      · exact h
    · rcases g.dorg u h with h | h
      · cases h
      · exact h
  | .lab [] s, nm, ctx, p, n, p', n', c, pc, hp, hr, he, hc, hC, hK, hI, hF => .lab0 (at_of s _ _ _ _ _ _ _ _ hp hr he hc hC hK hI hF)
  | .lab (x :: ls) s, nm, ctx, p, n, p', n', c, pc, hp, hr, he, hc, hC, hK, hI, hF => by
    simp only [parseStmt, Option.bind_eq_bind] at hp
    obtain ⟨q, hq, hp⟩ := Option.bind_eq_some_iff.1 hp
    obtain ⟨⟨ns, r⟩, hs, hp⟩ := Option.bind_eq_some_iff.1 hp
    simp only [Option.some.injEq, Prod.mk.injEq] at hp
    obtain ⟨rfl, rfl⟩ := hp
    simp only [resolve, Option.bind_eq_bind, Option.bind_some] at hr
    obtain ⟨ns', hrs, hr⟩ := Option.bind_eq_some_iff.1 hr
    injection hr with hr; subst hr
    simp only [genStmt] at hC hK ⊢
    simp only [codeAt_seq, lines_eq, codeAt_one, List.length_cons, List.length_nil] at hC
    simp only [st_seq] at hK
    simp only [len_seq, lines_eq, List.length_cons, List.length_nil, ← Nat.add_assoc]
    obtain ⟨a1, a2, a3, a4⟩ := labelStmt_ok _ _ _ _ _ _ hq
    have hI' : ∀ t cs d, actSw ctx = some (t, cs, d) → CaseInv t q.cases := fun t cs d h =>
      (a3 t (by rw [activeSwitch_toJ, h]; rfl)).1.inv (hI t cs d h)
    have hFq := hF.back hs hI'
    refine .lab hC.1 ⟨fun m hm => ?_, fun lo hi hm => ?_, fun hm => ?_⟩
      (at_of s _ _ _ _ _ _ _ _ hs hrs he hc hC.2 hK.2 hI' hF)
    · refine hFq.user (userNames (x :: ls), p.id) (List.mem_cons_self ..) m ?_
      exact mem_userNames hm
    · cases hsw : actSw ctx with
      | none => exact absurd hm ((a4 (by rw [activeSwitch_toJ, hsw]; rfl)).1 lo hi)
      | some y =>
        obtain ⟨t, cs, d⟩ := y
        exact ⟨t, cs, d, rfl, fun v b1 b2 => (hFq.sw t cs d hsw).2.1 _ v ((a3 t (by rw [activeSwitch_toJ, hsw]; rfl)).2.1 (hI t cs d hsw) lo hi hm v b1 b2)⟩
    · cases hsw : actSw ctx with
      | none => exact absurd hm (a4 (by rw [activeSwitch_toJ, hsw]; rfl)).2
      | some y =>
        obtain ⟨t, cs, d⟩ := y
        have := (hFq.sw t cs d hsw).2.2 _ ((a3 t (by rw [activeSwitch_toJ, hsw]; rfl)).2.2 hm)
        exact ⟨t, cs, by rw [this]⟩

end
end Slimcc
