import Verif.Lemmas.AddrVal
/-! The code of designators: pointer expressions. -/
set_option autoImplicit false
namespace Slimcc.AGen
open Slimcc Slimcc.Spec Slimcc.Spec.CTy Slimcc.Ty Slimcc.X86 Slimcc.Gen Slimcc.Addr

section
variable {C : Cfg} {P : ODecls} {E : Env} {Pg : List Line} {M : Machine} {O : Objects}

/-- The 64-bit operation. -/
def arithWord : ArOp → Word → Word → Word
  | .add, x, y => x + y
  | .sub, x, y => x - y
  | _, x, y => x * y

theorem range_ulong (x : Word) : InRange (cty ty_ulong) (x.toNat : Int) := by
  have := x.isLt
  show InRange .ulong _
  unfold InRange
  have e1 : CTy.minVal .ulong = 0 := by decide
  have e2 : CTy.maxVal .ulong = 18446744073709551615 := by decide
  rw [e1, e2]
  omega

theorem low_nat (x : Word) : Low 8 (x.toNat : Int) x := by
  have := Low.of_eq 8 (x.toNat : Int) (by omega)
  rwa [BitVec.ofInt_natCast, BitVec.ofNat_toNat, BitVec.setWidth_eq] at this

theorem arithEnd8_calc (k : ArOp) (hk : k = .add ∨ k = .sub ∨ k = .mul) (i : Nat) (s : St) :
    CalcR E (.tmp i) (arithEnd k false 8 (.tmp i)) s fun s' => s'.r .ax = arithWord k (s.r (.tmp i)) (s.r .ax) := by
  have hin := range_ulong (s.r (.tmp i))
  have hin' := range_ulong (s.r .ax)
  rcases hk with rfl | rfl | rfl
  · have := arithEnd_calc (E := E) .add ty_ulong _ _ _ (.tmp i) i rfl s rfl (by decide) hin hin' (low_nat _) (low_nat _) rfl
    obtain ⟨s', a, b, c, d⟩ := this
    refine ⟨s', a, b, c, ?_⟩
    have d : s'.r .ax = _ := Low.eq8 d
    show s'.r .ax = _
    rw [d, show cty ty_ulong = .ulong from rfl, ofInt_conv64 .ulong _ rfl, BitVec.ofInt_add, BitVec.ofInt_natCast, BitVec.ofInt_natCast]
    simp [arithWord]
  · have := arithEnd_calc (E := E) .sub ty_ulong _ _ _ (.tmp i) i rfl s rfl (by decide) hin hin' (low_nat _) (low_nat _) rfl
    obtain ⟨s', a, b, c, d⟩ := this
    refine ⟨s', a, b, c, ?_⟩
    have d : s'.r .ax = _ := Low.eq8 d
    show s'.r .ax = _
    rw [d, show cty ty_ulong = .ulong from rfl, ofInt_conv64 .ulong _ rfl, Int.sub_eq_add_neg, BitVec.ofInt_add, BitVec.ofInt_neg, BitVec.ofInt_natCast, BitVec.ofInt_natCast]
    simp [arithWord, BitVec.sub_eq_add_neg]
  · have := arithEnd_calc (E := E) .mul ty_ulong _ _ _ (.tmp i) i rfl s rfl (by decide) hin hin' (low_nat _) (low_nat _) rfl
    obtain ⟨s', a, b, c, d⟩ := this
    refine ⟨s', a, b, c, ?_⟩
    have d : s'.r .ax = _ := Low.eq8 d
    show s'.r .ax = _
    rw [d, show cty ty_ulong = .ulong from rfl, ofInt_conv64 .ulong _ rfl, BitVec.ofInt_mul, BitVec.ofInt_natCast, BitVec.ofInt_natCast]
    simp [arithWord]

theorem zx8 (x : Word) : zx 8 x = x := by unfold zx; simp

/-- codegen.c:2003-2025: both operands are evaluated. -/
theorem binaryA_does (S : Setup C P E Pg M O) (recE : ANode → G) (k : ArOp) (hk : k = .add ∨ k = .sub ∨ k = .mul) (a b : ANode)
    (h8 : P.sizeof a.ty = 8) (c : Nat) (s : St) {σ1 σ2 : Store} (x y : Word)
    (ha : ∀ c, (recE a c).1.st ≤ E.K → Does E Pg (recE a c).1 s fun s' => Here E M σ1 s' ∧ s'.r .ax = x)
    (hb : ∀ c s1, Here E M σ1 s1 → (recE b c).1.st ≤ E.K → Does E Pg (recE b c).1 s1 fun s' => Here E M σ2 s' ∧ s'.r .ax = y)
    (hK : (binaryA P E.stk recE k a b c).1.st ≤ E.K) :
    Does E Pg (binaryA P E.stk recE k a b c).1 s fun s' => Here E M σ2 s' ∧ s'.r .ax = arithWord k x y := by
  unfold binaryA at hK ⊢
  simp only [h8, decide_true, Bool.true_or] at hK ⊢
  have hK' := seq_st_le hK
  refine does_seq _ _ c s _ _ (ha c hK'.1) fun s1 e1 q1 => ?_
  have hK2 := hK'.2
  refine does_tmp_mem S.hok .ax true (recE b) _ _ s1 (fun s2 => Here E M σ2 s2 ∧ s2.r .ax = y) _ q1.1.bp hK'.2 (fun s2 h1 h2 h3 h4 h5 => ?_) (fun s2 l hl h1 h2 h3 => ?_)
  · exact hb _ s2 ⟨q1.1.sok, h1, h4 _ q1.1.rel, fun b hb => (h5 b hb).trans (q1.1.mem b hb)⟩ (tmp_st_le hK'.2)
  · obtain ⟨i, hi, hlt⟩ := popReg_lt (pushIns E.stk true .ax) (recE b)
      (fun l => popIn E.stk true l ++ arithEnd k false (rsz true) (popReg l)) (recE a c).2
    rw [← hl] at hi
    obtain ⟨s3, x3, r3, m3, o3⟩ := popIn_run l _ _ s2 h1 h2
    rw [hi] at r3 o3
    rw [show rsz true = 8 from rfl, zx8, q1.2] at r3
    have hax : s3.r .ax = s2.r .ax := o3 .ax (by simp)
    obtain ⟨s4, x4, e4, m4, q4⟩ := CalcR.eff rfl hlt (arithEnd8_calc (E := E) k hk i s3)
    have heff : Eff E (tmp (pushIns E.stk true .ax) (recE b)
      (fun l => popIn E.stk true l ++ arithEnd k false (rsz true) (popReg l)) (recE a c).2).1.gp 0 s2 s4 := by
      refine Eff.trans (eff_regs _ m3 fun r hr => ?_) e4
      rcases hr with rfl | ⟨j, hj, rfl⟩ | rfl
      · exact o3 _ (by simp)
      · exact o3 _ (by intro e; injection e; omega)
      · exact o3 _ (by simp)
    refine ⟨s4, ?_, heff, ?_, ?_⟩
    · rw [execs_append, x3, hi]; exact x4
    · exact ⟨h3.1.sok, heff.bp.trans h3.1.bp, by rw [m4, m3]; exact h3.1.rel, fun b hb => by rw [m4, m3]; exact h3.1.mem b hb⟩
    · rw [q4, r3, hax, h3.2]

/-- codegen.c:2608-2672 without operands behind integer conversions. -/
theorem arithA_cases {loc : Nat → MemOp} {obj : Nat → Int → MemOp} {recE : ANode → G} {k : ArOp} {op : Alu} (ho : aluOf k = some op) {a b : ANode}
    (ha : castMem C P loc obj a = none) (hb : castMem C P loc obj b = none) {g : G} (h : arithA C P loc obj recE 8 k a b = some g) :
    (∃ v, constOf C P b = some v ∧ g = (recE a ;; inss (immArith k 8 v))) ∨
    (k ≠ .sub ∧ ∃ v, constOf C P a = some v ∧ g = (recE b ;; inss (immArith k 8 v))) ∨
    (∃ m, memopA C P loc obj b = some m ∧ g = (recE a ;; inss [.alu op 8 (.mem m) (.reg .ax)])) ∨
    (k ≠ .sub ∧ ∃ m, memopA C P loc obj a = some m ∧ g = (recE b ;; inss [.alu op 8 (.mem m) (.reg .ax)])) := by
  unfold arithA at h
  rw [ho] at h
  dsimp only at h
  have p2 : ∀ l r : ANode, castMem C P loc obj r = none → arithA2 C P loc obj recE k op 8 l r 2 = none := by
    intro l r hr; unfold arithA2; rw [hr]; rfl
  have p3 : ∀ l r : ANode, castMem C P loc obj r = none → arithA2 C P loc obj recE k op 8 l r 3 = none := by
    intro l r hr; unfold arithA2; rw [hr]; rfl
  rw [p2 a b hb, p2 b a ha, p3 a b hb, p3 b a ha] at h
  have e0 : ∀ l r : ANode, arithA2 C P loc obj recE k op 8 l r 0 = (constOf C P r).map fun v => recE l ;; inss (immArith k 8 v) := fun l r => rfl
  have e1 : ∀ l r : ANode, arithA2 C P loc obj recE k op 8 l r 1 = (memopA C P loc obj r).map fun m => recE l ;; inss [.alu op 8 (.mem m) (.reg .ax)] := fun l r => rfl
  rw [e0, e0, e1, e1] at h
  cases hcb : constOf C P b with
  | some v =>
    rw [hcb] at h
    injection h with h
    exact .inl ⟨v, rfl, h.symm⟩
  | none =>
    rw [hcb] at h
    simp only [Option.map_none, Option.orElse_none] at h
    by_cases hs : k = .sub
    · simp only [hs, if_true, Option.orElse_none] at h
      cases hmb : memopA C P loc obj b with
      | some m =>
        rw [hmb] at h
        simp only [Option.map_some, Option.orElse_some, Option.some.injEq] at h
        exact .inr (.inr (.inl ⟨m, rfl, h.symm⟩))
      | none => rw [hmb] at h; simp at h
    · simp only [hs, if_false] at h
      cases hca : constOf C P a with
      | some v =>
        rw [hca] at h
        simp only [Option.map_some, Option.orElse_some, Option.some.injEq] at h
        exact .inr (.inl ⟨hs, v, rfl, h.symm⟩)
      | none =>
        rw [hca] at h
        simp only [Option.map_none, Option.orElse_none] at h
        cases hmb : memopA C P loc obj b with
        | some m =>
          rw [hmb] at h
          simp only [Option.map_some, Option.orElse_some, Option.some.injEq] at h
          exact .inr (.inr (.inl ⟨m, rfl, h.symm⟩))
        | none =>
          rw [hmb] at h
          cases hma : memopA C P loc obj a with
          | some m =>
            rw [hma] at h
            simp only [Option.map_none, Option.map_some, Option.orElse_none, Option.orElse_some, Option.some.injEq] at h
            exact .inr (.inr (.inr ⟨hs, m, rfl, h.symm⟩))
          | none => rw [hma] at h; simp at h

/-- A scaled index is not an operand in memory. -/
theorem scale_memop (n : ANode) (size : Nat) (loc : Nat → MemOp) (obj : Nat → Int → MemOp) :
    memopA C P loc obj (scale C P n size) = none ∧ castMem C P loc obj (scale C P n size) = none := by
  cases n <;> exact ⟨rfl, rfl⟩

theorem common_long' (t : CTy) : (CTy.common t .long).bytes = 8 := by cases t <;> decide

theorem scale_size (n : ANode) (size : Nat) : P.sizeof (scale C P n size).ty = 8 := by
  have h : ∀ n : ANode, P.sizeof (.int (match (promoteA C P n).ty with | .int t => CTy.common t .long | _ => .long)) = 8 := by
    intro n
    split
    · exact common_long' _
    · rfl
  unfold scale
  split
  · exact common_long _
  · exact h _

theorem castMem_ptr {n : ANode} {t : OTy} (h : n.ty = .ptr t) (loc : Nat → MemOp) (obj : Nat → Int → MemOp) : castMem C P loc obj n = none := by
  cases n with
  | int _ _ => cases h
  | cast t' e =>
    have : t' = .ptr t := h
    subst this; rfl
  | _ => rfl

/-- codegen.c:2865-2959 on a pointer that is not an object. -/
theorem exprOpt_ptr {loc : Nat → MemOp} {obj : Nat → Int → MemOp} {stk : Nat} {recE recA : ANode → G} {n : ANode} {t : OTy} (hp : ¬ Place n)
    (hty : n.ty = .ptr t) (hk : constOf C P n = none) (hb : boolOptA C loc stk recE n = none) {g : G}
    (h : exprOptA C P loc obj stk recE recA n = some g) :
    (∃ m, memopPtr C P obj n = some m ∧ g = inss [.lea m .ax]) ∨
    (∃ m, memopA C P loc obj n = some m ∧ g = inss [loadTy (.ptr t) m]) ∨
    gpOptA C P loc obj recE n = some g := by
  unfold exprOptA at h
  have hgp : gpTy (.ptr t) = true := rfl
  rw [hty, hk, hb] at h
  simp only [hgp, if_true] at h
  have htr : truncOptA C P loc obj recE n = none := by
    cases n with
    | cast t' e =>
      have : t' = .ptr t := hty
      subst this; rfl
    | _ => rfl
  have hlo : loadOptA C P loc obj n = (memopPtr C P obj n).map fun m => inss [.lea m .ax] := by
    unfold loadOptA
    cases memopPtr C P obj n with
    | some m => rfl
    | none =>
      cases n with
      | cast t' e =>
        have : t' = .ptr t := hty
        subst this; rfl
      | _ => rfl
  rw [htr, hlo] at h
  cases hm : memopPtr C P obj n with
  | some m =>
    rw [hm] at h
    simp only [Option.map_some, Option.some.injEq] at h
    exact .inl ⟨m, rfl, h.symm⟩
  | none =>
    rw [hm] at h
    simp only [Option.map_none] at h
    cases hma : memopA C P loc obj n with
    | some m =>
      rw [hma] at h
      simp only [Option.some.injEq] at h
      exact .inr (.inl ⟨m, rfl, h.symm⟩)
    | none =>
      rw [hma] at h
      dsimp only at h
      cases hgo : gpOptA C P loc obj recE n with
      | some g' => rw [hgo] at h; simp only [Option.some.injEq] at h; exact .inr (.inr (by rw [h]))
      | none =>
        rw [hgo] at h
        exfalso
        cases n with
        | deref _ _ => exact hp (.inr (.inl ⟨_, _, rfl⟩))
        | member _ _ _ => exact hp (.inr (.inr ⟨_, _, _, rfl⟩))
        | _ => cases h

theorem Usable.left {opt : Bool} {a b : List Expr} (h : Usable E opt (a ++ b)) : Usable E opt a := fun e he => h e (List.mem_append.2 (.inl he))
theorem Usable.right {opt : Bool} {a b : List Expr} (h : Usable E opt (a ++ b)) : Usable E opt b := fun e he => h e (List.mem_append.2 (.inr he))

theorem Alike.pok {p q : PE} {t u : OTy} (h : Alike P p q) (hp : POk C P E p t) (hu : q.pointee P = some u) : POk C P E q u :=
  ⟨hu, h.wf hp.wf, h.conv hp.conv, by rw [h.exprs]; exact hp.usable⟩

theorem POk.addr {l : LV} {t : OTy} (h : POk C P E (.addr l) t) : LOk C P E l t := ⟨by simpa [PE.pointee] using h.ty, h.wf, h.conv, h.usable⟩
theorem POk.value {l : LV} {t : OTy} (h : POk C P E (.value l) t) : LOk C P E l (.ptr t) := ⟨pointee_value h.ty, h.wf, h.conv, h.usable⟩

/-- An operand in memory as the address of an object. -/
theorem memopPtr_gives (S : Setup C P E Pg M O) {p : PE} {t : OTy} (hp : POk C P E p t) {m : MemOp}
    (hm : memopPtr C P O.at_ (buildP C P p) = some m) :
    Gives E Pg M (inss [.lea m .ax]) (p.eval P M) (p.Fine P M E) (fun a x => x = a) := by
  obtain ⟨l, u, x, o, rfl, hx, hl, ha⟩ := memopPtr_P S.hC p t hp.ty hp.conv m hm
  have := gives_lea S (ha.pok hp (u := u) (by simpa [PE.pointee] using hl)).addr hx
  intro σ s σ' a c h hf he hK
  exact this σ s σ' a c h (ha.fine M E σ hf) (by rw [← ha.eval M] at he; exact he) hK

/-- A pointer object as an operand in memory: its address is not changed by what is evaluated. -/
theorem memopA_at (S : Setup C P E Pg M O) {p : PE} {t : OTy} (hp : POk C P E p t) (hty : (buildP C P p).ty = .ptr t) {m : MemOp}
    (hm : memopA C P E.loc O.at_ (buildP C P p) = some m) {σ σ' : Store} {a : Word} (hσ : StoreOk P.ints σ) (hf : p.Fine P M E σ)
    (he : p.eval P M σ = .ok (a, σ')) :
    σ' = σ ∧ ∀ (σ1 : Store) (s : St), Here E M σ1 s → ∃ b, ea E.sym s m = b ∧ E.Apart b 8 ∧ a = BitVec.ofNat 64 (M.word b 8) := by
  obtain ⟨l, u, x, o, rfl, hx, hl, ha⟩ := memopA_P S.hC p t hp.ty hp.conv hty m hm
  have hv : (PE.value l).pointee P = some u := by unfold PE.pointee; rw [hl]
  have hvo := (ha.pok hp hv).value
  have hf' := ha.fine M E σ hf
  rw [← ha.eval M, PE.eval] at he
  obtain ⟨⟨b, σ1⟩, e1, e2⟩ := res_bind he
  injection e2 with e2; injection e2 with e2 e3
  obtain ⟨g1, g2⟩ := place_at S.hC l _ hvo.ty hvo.wf hvo.conv hx hσ hf'.1 e1
  refine ⟨by rw [← e3, g2], fun σ2 s h => ⟨b, by rw [ea_obj S h.bp, g1], (hf'.2 b σ1 e1).1, e2.symm⟩⟩

theorem addMem_calc {σ : Store} {s : St} (h : Here E M σ s) {m : MemOp} {b : Word} (hb : ea E.sym s m = b) (ha : E.Apart b 8) :
    Calc E [.alu .add 8 (.mem m) (.reg .ax)] s fun s' => s'.r .ax = s.r .ax + BitVec.ofNat 64 (M.word b 8) := by
  have := alu_calc (E := E) .add 8 (Or.inr rfl) (.mem m) (BitVec.ofNat 64 (M.word b 8)) s (by
    show SameLow 8 (rd s.m (ea E.sym s m) 8) _
    rw [hb, rd_word M s.m b 8 (by omega) (h.obj ha)]
    exact SameLow.rfl' _ _)
  exact this.imp fun s' _ q => by unfold SameLow at q; simpa [aluOp] using q

/-- codegen.c:1620-2065, 2865-2959 on pointers. -/
theorem stepPtr (S : Setup C P E Pg M O) (f : Nat) (ihA : GAddr C P E Pg M O f) (ihP : GPtr C P E Pg M O f) (ihS : GIdx C P E Pg M O f)
    (hV : GVal C P E Pg M O (f + 1)) : ∀ (p : PE) (t : OTy), POk C P E p t → 2 * height (buildP C P p) + 1 ≤ f + 1 →
      Gives E Pg M (run C P E O (f + 1) .expr (buildP C P p)) (p.eval P M) (p.Fine P M E) (fun a x => x = a)
  | .addr l, t, hp, hh => by
    have hl := hp.addr
    have hhl : height (buildP C P (.addr l)) = height (buildL C P l) + 1 := rfl
    rcases genA_expr (C := C) (P := P) (E := E) (O := O) f (buildP C P (.addr l)) (by intro _ _ e; cases e) with ⟨_, g, hg, e⟩ | e
    · rw [e]
      rcases exprOpt_ptr (n := buildP C P (.addr l)) (by rintro (⟨_, _, h⟩ | ⟨_, _, h⟩ | ⟨_, _, _, h⟩) <;> cases h) rfl (knownP S.hC _ t hp.ty hp.conv).1.constOf rfl hg with ⟨m, hm, rfl⟩ | ⟨m, hm, rfl⟩ | h
      · exact memopPtr_gives S hp hm
      · cases hm
      · cases h
    · rw [e]
      intro σ s σ' a c h hf he hK
      exact ihA l t hl (by omega) σ s σ' a c h hf he hK
  | .decay l, t, hp, hh => by
    obtain ⟨n, hl⟩ := pointee_decay hp.ty
    intro σ s σ' a c h hf he hK
    exact hV l _ ⟨hl, hp.wf, hp.conv, hp.usable⟩ hh σ s σ' a c h ⟨hf, trivial⟩ he hK
  | .value l, t, hp, hh => by
    intro σ s σ' a c h hf he hK
    rw [PE.eval] at he
    obtain ⟨⟨b, σ1⟩, e1, e2⟩ := res_bind he
    injection e2 with e2; injection e2 with e2 e3
    subst e3
    exact (hV l _ hp.value hh σ s _ b c h ⟨hf.1, hf.2⟩ e1 hK).imp fun s' _ q => ⟨q.1, by rw [← e2]; exact q.2⟩
  | .cast u p, t, hp, hh => by
    obtain ⟨hu, v, hv⟩ := pointee_cast hp.ty
    subst hu
    have hq : POk C P E p v := ⟨hv, hp.wf, hp.conv, hp.usable⟩
    rcases castA_ptr_form C P (buildP C P p) u with eb | eb
    · have eb' : buildP C P (.cast u p) = buildP C P p := eb
      rw [eb'] at hh ⊢
      exact stepPtr S f ihA ihP ihS hV p v hq hh
    · have eb' : buildP C P (.cast u p) = .cast (.ptr u) (buildP C P p) := eb
      have hk := (knownP S.hC _ u hp.ty hp.conv).1.constOf
      have hmp := fun m => memopPtr_gives S hp (m := m)
      have hma := fun m => memopA_at S hp (m := m) (by rw [eb']; rfl)
      rw [eb'] at hh hk hmp hma ⊢
      have hhl : height (ANode.cast (.ptr u) (buildP C P p)) = height (buildP C P p) + 1 := rfl
      rcases genA_expr (C := C) (P := P) (E := E) (O := O) f (.cast (.ptr u) (buildP C P p)) (by intro _ _ e; cases e) with ⟨_, g, hg, e⟩ | e
      · rw [e]
        rcases exprOpt_ptr (n := .cast (.ptr u) (buildP C P p)) (by rintro (⟨_, _, h⟩ | ⟨_, _, h⟩ | ⟨_, _, _, h⟩) <;> cases h) rfl hk
          (boolA_P S.hC _ _ p v hv hp.conv) hg with ⟨m, hm, rfl⟩ | ⟨m, hm, rfl⟩ | h
        · exact hmp m hm
        · intro σ s σ' a c h hf he hK
          obtain ⟨e1, e2⟩ := hma m hm (S.sok h) hf he
          subst e1
          obtain ⟨b, g1, g2, g3⟩ := e2 _ s h
          refine here_calc h ((ptrLoad_calc b (h.obj g2) m g1).imp fun s' _ q => ?_) c
          rw [q, g3]
        · cases h
      · rw [e]
        have hty : rowTy (buildP C P p).ty = ty_ulong := by
          rcases buildP_ty C P S.hC p v hv with h | ⟨k, h⟩ <;> rw [h] <;> rfl
        intro σ s σ' a c h hf he hK
        have e2 : exprPlainA C P E.loc E.stk (run C P E O f .expr) (run C P E O f .addr) (.cast (.ptr u) (buildP C P p)) =
            (run C P E O f .expr (buildP C P p) ;; inss []) := by
          show (run C P E O f .expr (buildP C P p) ;; inss (castIns (rowTy (buildP C P p).ty) ty_ulong)) = _
          rw [hty]; rfl
        rw [e2] at hK ⊢
        exact seq_calc (ihP p v hq (by omega) σ s σ' a c h hf he (seq_st1 hK)) fun s1 h1 q => calc_nil s1 _ q
  | .ofInt _ _, _, hp, _ => hp.conv.elim
  | .add p i, t, hp, hh => by
    obtain ⟨hpp, ui, hi⟩ := pointee_add hp.ty
    have hq0 : POk C P E p t := ⟨hpp, hp.wf.1, hp.conv.1, Usable.left hp.usable⟩
    have hio : IOk C P E i ui := ⟨hi, hp.wf.2, hp.conv.2, Usable.right hp.usable⟩
    obtain ⟨q, eq, hqt, hqy, hal⟩ := ptrOf_build S.hC p t hpp hp.conv.1
    have hq : POk C P E q t := hal.pok hq0 hqt
    have hb := pointee_base C P S.hC p t hpp
    have eb : buildP C P (.add p i) = .add (.ptr t) (buildP C P q) (scale C P (buildI C P i) (P.sizeof t)) := by
      rw [buildP, eq, hb]
    have hk := (knownP S.hC _ t hp.ty hp.conv).1.constOf
    rw [eb] at hh hk ⊢
    rw [height] at hh
    have hkq := (knownP S.hC q t hqt hq.conv).1.constOf
    have hsm := scale_memop (C := C) (P := P) (buildI C P i) (P.sizeof t) E.loc O.at_
    have split : ∀ (σ σ' : Store) (a : Word), (PE.add p i).Fine P M E σ → (PE.add p i).eval P M σ = .ok (a, σ') →
        ∃ b σ1 v, q.eval P M σ = .ok (b, σ1) ∧ i.eval P M σ1 = .ok (v, σ') ∧ q.Fine P M E σ ∧ i.Fine P M E σ1 ∧
          a = b + BitVec.ofInt 64 (v * P.sizeof t) := by
      intro σ σ' a hf he
      rw [PE.eval] at he
      obtain ⟨⟨b, σ1⟩, e1, he⟩ := res_bind he
      obtain ⟨⟨v, σ2⟩, e2, e3⟩ := res_bind he
      dsimp only at e2 e3
      injection e3 with e3; injection e3 with e3 e4
      rw [hpp, stride_some] at e3
      subst e4
      exact ⟨b, σ1, v, by rw [hal.eval]; exact e1, e2, hal.fine M E σ hf.1, hf.2 b σ1 e1, e3.symm⟩
    rcases genA_expr (C := C) (P := P) (E := E) (O := O) f (.add (.ptr t) (buildP C P q) (scale C P (buildI C P i) (P.sizeof t))) (by intro _ _ e; cases e) with ⟨_, g, hg, e⟩ | e
    · rw [e]
      rcases exprOpt_ptr (by rintro (⟨_, _, h⟩ | ⟨_, _, h⟩ | ⟨_, _, _, h⟩) <;> cases h) rfl hk rfl hg with ⟨m, hm, rfl⟩ | ⟨m, hm, rfl⟩ | h
      · cases hm
      · cases hm
      · rcases arithA_cases (k := .add) rfl (castMem_ptr hqy _ _) hsm.2 h with ⟨v, hv, rfl⟩ | ⟨_, v, hv, _⟩ | ⟨m, hm, _⟩ | ⟨_, m, hm, rfl⟩
        · intro σ s σ' a c h hf he hK
          obtain ⟨b, σ1, k, e1, e2, f1, f2, rfl⟩ := split σ σ' a hf he
          have hσ1 := sokP C.hs M q σ σ1 b hq.wf (S.sok h) e1
          obtain ⟨g1, g2⟩ := idx_const S.hC i ui hi hio.wf hio.conv _ v hv hσ1 e2
          subst g2
          refine seq_calc (ihP q t hq (by omega) σ s _ b c h f1 e1 (seq_st1 hK)) fun s1 h1 r => ?_
          exact (immAdd_calc v s1).imp fun s' _ r' => by rw [r', r, g1]
        · rw [hkq] at hv; cases hv
        · rw [hsm.1] at hm; cases hm
        · intro σ s σ' a c h hf he hK
          obtain ⟨b, σ1, k, e1, e2, f1, f2, rfl⟩ := split σ σ' a hf he
          obtain ⟨g1, g2⟩ := memopA_at S hq hqy hm (S.sok h) f1 e1
          subst g1
          refine seq_calc (ihS i ui _ hio (by omega) _ s σ' k c h f2 e2 (seq_st1 hK)) fun s1 h1 r => ?_
          obtain ⟨b', k1, k2, k3⟩ := g2 _ s1 h1
          refine (addMem_calc h1 k1 k2).imp fun s' _ r' => ?_
          rw [r', r, k3, BitVec.add_comm]
    · rw [e]
      intro σ s σ' a c h hf he hK
      obtain ⟨b, σ1, k, e1, e2, f1, f2, rfl⟩ := split σ σ' a hf he
      exact binaryA_does S _ .add (Or.inl rfl) _ _ (by rw [hqy]; rfl) c s b (BitVec.ofInt 64 (k * P.sizeof t))
        (fun c hK => ihP q t hq (by omega) σ s σ1 b c h f1 e1 hK)
        (fun c s1 h1 hK => ihS i ui _ hio (by omega) σ1 s1 σ' k c h1 f2 e2 hK) hK
  | .radd i p, t, hp, hh => by
    obtain ⟨hpp, ui, hi⟩ := pointee_radd hp.ty
    have hq0 : POk C P E p t := ⟨hpp, hp.wf.2, hp.conv.2, Usable.right hp.usable⟩
    have hio : IOk C P E i ui := ⟨hi, hp.wf.1, hp.conv.1, Usable.left hp.usable⟩
    obtain ⟨q, eq, hqt, hqy, hal⟩ := ptrOf_build S.hC p t hpp hp.conv.2
    have hq : POk C P E q t := hal.pok hq0 hqt
    have hb := pointee_base C P S.hC p t hpp
    have eb : buildP C P (.radd i p) = .add (.ptr t) (scale C P (buildI C P i) (P.sizeof t)) (buildP C P q) := by
      rw [buildP, eq, hb]
    have hk := (knownP S.hC _ t hp.ty hp.conv).1.constOf
    rw [eb] at hh hk ⊢
    rw [height] at hh
    have hkq := (knownP S.hC q t hqt hq.conv).1.constOf
    have hsm := scale_memop (C := C) (P := P) (buildI C P i) (P.sizeof t) E.loc O.at_
    have split : ∀ (σ σ' : Store) (a : Word), (PE.radd i p).Fine P M E σ → (PE.radd i p).eval P M σ = .ok (a, σ') →
        ∃ v σ1 b, i.eval P M σ = .ok (v, σ1) ∧ q.eval P M σ1 = .ok (b, σ') ∧ i.Fine P M E σ ∧ q.Fine P M E σ1 ∧
          a = b + BitVec.ofInt 64 (v * P.sizeof t) := by
      intro σ σ' a hf he
      rw [PE.eval] at he
      obtain ⟨⟨v, σ1⟩, e1, he⟩ := res_bind he
      obtain ⟨⟨b, σ2⟩, e2, e3⟩ := res_bind he
      dsimp only at e2 e3
      injection e3 with e3; injection e3 with e3 e4
      rw [hpp, stride_some] at e3
      subst e4
      exact ⟨v, σ1, b, e1, by rw [hal.eval]; exact e2, hf.1, hal.fine M E σ1 (hf.2 v σ1 e1), e3.symm⟩
    rcases genA_expr (C := C) (P := P) (E := E) (O := O) f (.add (.ptr t) (scale C P (buildI C P i) (P.sizeof t)) (buildP C P q)) (by intro _ _ e; cases e) with ⟨_, g, hg, e⟩ | e
    · rw [e]
      rcases exprOpt_ptr (by rintro (⟨_, _, h⟩ | ⟨_, _, h⟩ | ⟨_, _, _, h⟩) <;> cases h) rfl hk rfl hg with ⟨m, hm, rfl⟩ | ⟨m, hm, rfl⟩ | h
      · cases hm
      · cases hm
      · rcases arithA_cases (k := .add) rfl hsm.2 (castMem_ptr hqy _ _) h with ⟨v, hv, _⟩ | ⟨_, v, hv, rfl⟩ | ⟨m, hm, rfl⟩ | ⟨_, m, hm, rfl⟩
        · rw [hkq] at hv; cases hv
        · intro σ s σ' a c h hf he hK
          obtain ⟨k, σ1, b, e1, e2, f1, f2, rfl⟩ := split σ σ' a hf he
          obtain ⟨g1, g2⟩ := idx_const S.hC i ui hi hio.wf hio.conv _ v hv (S.sok h) e1
          subst g2
          refine seq_calc (ihP q t hq (by omega) _ s σ' b c h f2 e2 (seq_st1 hK)) fun s1 h1 r => ?_
          exact (immAdd_calc v s1).imp fun s' _ r' => by rw [r', r, g1]
        · intro σ s σ' a c h hf he hK
          obtain ⟨k, σ1, b, e1, e2, f1, f2, rfl⟩ := split σ σ' a hf he
          have hσ1 := sokI C.hs M i σ σ1 k hio.wf (S.sok h) e1
          obtain ⟨g1, g2⟩ := memopA_at S hq hqy hm hσ1 f2 e2
          subst g1
          refine seq_calc (ihS i ui _ hio (by omega) _ s _ k c h f1 e1 (seq_st1 hK)) fun s1 h1 r => ?_
          obtain ⟨b', k1, k2, k3⟩ := g2 _ s1 h1
          refine (addMem_calc h1 k1 k2).imp fun s' _ r' => ?_
          rw [r', r, k3, BitVec.add_comm]
        · rw [hsm.1] at hm; cases hm
    · rw [e]
      intro σ s σ' a c h hf he hK
      obtain ⟨k, σ1, b, e1, e2, f1, f2, rfl⟩ := split σ σ' a hf he
      have h8 : P.sizeof (scale C P (buildI C P i) (P.sizeof t)).ty = 8 := scale_size _ _
      rw [BitVec.add_comm]
      exact binaryA_does S _ .add (Or.inl rfl) _ _ h8 c s (BitVec.ofInt 64 (k * P.sizeof t)) b
        (fun c hK => ihS i ui _ hio (by omega) σ s σ1 k c h f1 e1 hK)
        (fun c s1 h1 hK => ihP q t hq (by omega) σ1 s1 σ' b c h1 f2 e2 hK) hK
  | .sub p i, t, hp, hh => by
    obtain ⟨hpp, ui, hi⟩ := pointee_sub hp.ty
    have hq0 : POk C P E p t := ⟨hpp, hp.wf.1, hp.conv.1, Usable.left hp.usable⟩
    have hio : IOk C P E i ui := ⟨hi, hp.wf.2, hp.conv.2, Usable.right hp.usable⟩
    obtain ⟨q, eq, hqt, hqy, hal⟩ := ptrOf_build S.hC p t hpp hp.conv.1
    have hq : POk C P E q t := hal.pok hq0 hqt
    have hb := pointee_base C P S.hC p t hpp
    have eb : buildP C P (.sub p i) = .sub (.ptr t) (buildP C P q) (scale C P (buildI C P i) (P.sizeof t)) := by
      rw [buildP, eq, hb]
    have hk := (knownP S.hC _ t hp.ty hp.conv).1.constOf
    rw [eb] at hh hk ⊢
    rw [height] at hh
    have hsm := scale_memop (C := C) (P := P) (buildI C P i) (P.sizeof t) E.loc O.at_
    have split : ∀ (σ σ' : Store) (a : Word), (PE.sub p i).Fine P M E σ → (PE.sub p i).eval P M σ = .ok (a, σ') →
        ∃ b σ1 v, q.eval P M σ = .ok (b, σ1) ∧ i.eval P M σ1 = .ok (v, σ') ∧ q.Fine P M E σ ∧ i.Fine P M E σ1 ∧
          a = b - BitVec.ofInt 64 (v * P.sizeof t) := by
      intro σ σ' a hf he
      rw [PE.eval] at he
      obtain ⟨⟨b, σ1⟩, e1, he⟩ := res_bind he
      obtain ⟨⟨v, σ2⟩, e2, e3⟩ := res_bind he
      dsimp only at e2 e3
      injection e3 with e3; injection e3 with e3 e4
      rw [hpp, stride_some] at e3
      subst e4
      exact ⟨b, σ1, v, by rw [hal.eval]; exact e1, e2, hal.fine M E σ hf.1, hf.2 b σ1 e1, e3.symm⟩
    rcases genA_expr (C := C) (P := P) (E := E) (O := O) f (.sub (.ptr t) (buildP C P q) (scale C P (buildI C P i) (P.sizeof t))) (by intro _ _ e; cases e) with ⟨_, g, hg, e⟩ | e
    · rw [e]
      rcases exprOpt_ptr (by rintro (⟨_, _, h⟩ | ⟨_, _, h⟩ | ⟨_, _, _, h⟩) <;> cases h) rfl hk rfl hg with ⟨m, hm, rfl⟩ | ⟨m, hm, rfl⟩ | h
      · cases hm
      · cases hm
      · rcases arithA_cases (k := .sub) rfl (castMem_ptr hqy _ _) hsm.2 h with ⟨v, hv, rfl⟩ | ⟨hne, _⟩ | ⟨m, hm, _⟩ | ⟨hne, _⟩
        · intro σ s σ' a c h hf he hK
          obtain ⟨b, σ1, k, e1, e2, f1, f2, rfl⟩ := split σ σ' a hf he
          have hσ1 := sokP C.hs M q σ σ1 b hq.wf (S.sok h) e1
          obtain ⟨g1, g2⟩ := idx_const S.hC i ui hi hio.wf hio.conv _ v hv hσ1 e2
          subst g2
          refine seq_calc (ihP q t hq (by omega) σ s _ b c h f1 e1 (seq_st1 hK)) fun s1 h1 r => ?_
          exact (immSub_calc v s1).imp fun s' _ r' => by rw [r', r, g1]
        · exact absurd rfl hne
        · rw [hsm.1] at hm; cases hm
        · exact absurd rfl hne
    · rw [e]
      intro σ s σ' a c h hf he hK
      obtain ⟨b, σ1, k, e1, e2, f1, f2, rfl⟩ := split σ σ' a hf he
      exact binaryA_does S _ .sub (Or.inr (Or.inl rfl)) _ _ (by rw [hqy]; rfl) c s b (BitVec.ofInt 64 (k * P.sizeof t))
        (fun c hK => ihP q t hq (by omega) σ s σ1 b c h f1 e1 hK)
        (fun c s1 h1 hK => ihS i ui _ hio (by omega) σ1 s1 σ' k c h1 f2 e2 hK) hK

end
end Slimcc.AGen
