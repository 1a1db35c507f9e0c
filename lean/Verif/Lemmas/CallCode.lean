import Verif.Lemmas.CallLoop
/-! The code of a call up to the call instruction, and after it. -/
set_option autoImplicit false
namespace Slimcc
open Slimcc.Spec Slimcc.Spec.CTy Slimcc.Ty Slimcc.X86 Slimcc.Gen Slimcc.AGen

theorem argRegister_lt {k : Nat} (h : k < 6) : argRegister k = some (argReg k) := by
  have : ∀ k, k < 6 → argRegister k = some (argReg k) := by decide
  exact this k h
theorem argRegister_ge {k : Nat} (h : ¬ k < 6) : argRegister k = none := by
  match k, h with
  | 0, h | 1, h | 2, h | 3, h | 4, h | 5, h => exact absurd (by decide) h
  | k + 6, _ => rfl

theorem b2n_ite (b : Bool) : CC.b2n b = if b then 1 else 0 := by cases b <;> rfl

section
variable {E : Env} {P : List Line} {opt : Bool} {hs : HostShift} {K st : Nat}

theorem stored_bytes (E : Env) {t : CTy} {v : Int} {A : Word} {m : Mem} (h : Stored t v A m) : Bytes m A t.bytes v := by
  let E0 : Env := withObj { E with dom := fun _ => False } t A
  have hr : Rel E0 (fun | 0 => v | _ => 0) m := by
    rw [rel_iff]
    intro x hx
    cases x with
    | zero => show rd m (E0.addr 0) _ = _; rw [withObj_addr0]; exact h
    | succ x => exact hx.elim
  intro i hi
  have := hr 0 trivial i hi
  rwa [withObj_addr0] at this

theorem spins (sym : Nat → Word) (op : Alu) (n : Nat) (s : St) :
    exec sym (.alu op 8 (.imm (BitVec.ofNat 64 n)) (.reg .sp)) s = some { s.setR .sp (aluOp op (s.r .sp) (BitVec.ofNat 64 n)) with f := none } := by
  simp only [exec, put', X86.get, put_of_rop 8 _ _ (Or.inr rfl), zx8, Option.map_some, St.noFlags]

theorem align_args (h n : Nat) : CC.alignTo (8 * (h + n - 6)) 16 = argBytes h n := by
  unfold CC.alignTo argBytes; omega

theorem conv_args (ns : List Node) (b : Bool) :
    CC.conv (ns.map fun n => .scalar (.int n.ty.size) n.ty.size) { gp := CC.b2n b, fp := 0 } =
      ((List.range' 0 ns.length).map (slotOf (CC.b2n b)), { gp := CC.b2n b + ns.length, fp := 0, stack := 8 * (CC.b2n b + ns.length - 6), maxAlign := 16 }) := by
  have := conv_ints (ns.map (·.ty)) (CC.b2n b) 0 { gp := CC.b2n b, fp := 0 } rfl rfl (by cases b <;> rfl) (Nat.le_refl _)
  rw [List.map_map] at this
  rw [List.length_map, Nat.add_zero] at this
  exact this

/-- Moving the stack pointer, or not. -/
theorem move_sp (op : Alu) (h n : Nat) (s : St) (hop : aluOp op (s.r .sp) 0 = s.r .sp) :
    ∃ s', execs E.sym (if 8 * (h + n - 6) ≠ 0 then [.alu op 8 (.imm (BitVec.ofNat 64 (CC.alignTo (8 * (h + n - 6)) 16))) (.reg .sp)] else []) s = some s' ∧
      s'.r .sp = aluOp op (s.r .sp) (BitVec.ofNat 64 (argBytes h n)) ∧ (∀ r, r ≠ .sp → s'.r r = s.r r) ∧ s'.m = s.m := by
  by_cases h0 : 8 * (h + n - 6) ≠ 0
  · rw [if_pos h0, align_args]
    exact ⟨{ s.setR .sp (aluOp op (s.r .sp) (BitVec.ofNat 64 (argBytes h n))) with f := none }, by simp only [execs, spins, Option.bind_some],
      setR_same s .sp _, fun r hr => setR_other s _ _ _ hr, rfl⟩
  · rw [if_neg h0]
    have : argBytes h n = 0 := by unfold argBytes; omega
    rw [this]
    exact ⟨s, rfl, hop.symm, fun _ _ => rfl, rfl⟩

theorem argCode_ok {S : Site} {σ σ' : Store} {vs : List Int} {temp : Nat → Int} {s : St} (lab : Nat)
    (C : Calls E P opt hs S.args (CC.b2n S.ret.isSome) σ vs temp (s.r .sp - BitVec.ofNat 64 (argBytes (CC.b2n S.ret.isSome) S.args.length)) K st)
    (hev : Evaluated E.Γ S.args σ σ' vs) (hbp : s.r .bp = E.bp) (hrel : Rel E σ s.m)
    (hg : (argCode hs opt E.Γ E.loc E.stk S temp lab).1.gp ≤ K) (ht : (argCode hs opt E.Γ E.loc E.stk S temp lab).1.st ≤ st) :
    DoesC E P (CallMem E S.args (CC.b2n S.ret.isSome) (Spilled hs opt E S.args (CC.b2n S.ret.isSome)) temp (s.r .sp - BitVec.ofNat 64 (argBytes (CC.b2n S.ret.isSome) S.args.length))) K st
      (argCode hs opt E.Γ E.loc E.stk S temp lab).1 s
      (Handed E S.args S.ret S.variadic σ' vs (s.r .sp - BitVec.ofNat 64 (argBytes (CC.b2n S.ret.isSome) S.args.length))) := by
  unfold argCode at hg ht ⊢
  have hlm : (S.args.map (argTree hs opt E.Γ)).length = S.args.length := List.length_map _
  simp only [conv_args, hlm] at hg ht ⊢
  generalize hh : CC.b2n S.ret.isSome = h at *
  have hg1 := seq_gp_le hg
  have hg2 := seq_gp_le hg1.2
  have hg3 := seq_gp_le hg2.2
  have ht1 := seq_st_le ht
  have ht2 := seq_st_le ht1.2
  have ht3 := seq_st_le ht2.2
  generalize hsp : s.r .sp - BitVec.ofNat 64 (argBytes h S.args.length) = sp at *
  -- the stack pointer
  obtain ⟨s1, x1, x2, x3, x4⟩ := move_sp (E := E) .sub h S.args.length s (by show s.r .sp - 0 = _; simp)
  have x2 : s1.r .sp = sp := by rw [x2, ← hsp]; rfl
  have I1 : Inv E hs opt S.args h σ vs temp sp (fun j => j < 0 ∧ Early hs opt E S.args h j) s1 :=
    ⟨(x3 .bp (by simp)).trans hbp, x2, ⟨σ, Mid.nil _ C.sok (fun i hi => by omega), by rw [x4]; exact hrel⟩, fun i _ _ _ _ hd => by omega⟩
  refine doesC_seq _ _ lab s (fun s' => s' = s1) _ (doesC_inss _ _ s s1 _ x1 ⟨x3 _ (by simp), fun i _ _ => x3 _ (by simp), fun a _ _ _ => by rw [x4]⟩ rfl) fun s1' _ e => ?_
  subst e
  refine doesC_seq _ _ _ s1' _ _ (C.stores S.args 0 0 s1' _ rfl (fun _ => rfl) I1 hg2.1 ht2.1) fun s2 _ I2 => ?_
  have I2 : Inv E hs opt S.args h σ vs temp sp (fun j => Early hs opt E S.args h j ∨ j < 0) s2 :=
    I2.congr fun j hj => ⟨fun h' => Or.inl h'.2, fun h' => h'.elim (fun h' => ⟨by omega, h'⟩) fun h' => by omega⟩
  refine doesC_seq _ _ _ s2 _ _ (C.loads S.args 0 0 h s2 _ rfl (fun _ => ⟨rfl, rfl⟩) I2 (fun j _ _ _ _ hj => by omega) hg3.1 ht3.1) fun s3 _ q3 => ?_
  obtain ⟨I3, L3⟩ := q3
  have R3 : Rel E σ' s3.m := by
    obtain ⟨τ, m1, m2⟩ := I3.mid
    have : Mid E.Γ (S.args.map (argExpr E.Γ)) (fun _ => True) σ τ := m1.congr fun j hj => ⟨fun _ => trivial, fun _ => Or.inr (by rw [List.length_map] at hj; omega)⟩
    rw [← this.done hs hev C.sok C.wf]
    exact m2
  have pass : ∀ s' : St, s'.r .sp = sp → s'.m = s3.m → (∀ k, h ≤ k → k < 6 → s'.r (argReg k) = s3.r (argReg k)) →
      ∀ (i : Nat) (a : Actual) (v : Int), S.args[i]? = some a → vs[i]? = some v → Passed (a.ty E.Γ) v (h + i) s' := by
    intro s' e1 e2 e3 i a v ha hv
    have hlt := (List.getElem?_eq_some_iff.1 ha).1
    unfold Passed
    by_cases h6 : h + i < 6
    · rw [argRegister_lt h6]
      dsimp only
      rw [e3 _ (by omega) h6, ← reps_inReg]
      exact L3 i a v ha hv (by omega) h6
    · rw [argRegister_ge h6]
      dsimp only
      rw [e1, e2]
      have := I3.stored i a v ha hv (Or.inl (Or.inl h6)) (Or.inl h6)
      unfold place at this
      rw [if_neg h6] at this
      exact stored_bytes E this
  have hh' : (if S.ret.isSome = true then 1 else 0) = h := by rw [← hh, b2n_ite]
  -- the buffer for the result
  obtain ⟨s4, y1, y2, y3, y4⟩ : ∃ s4, execs E.sym (match S.ret with | some o => [.lea (.frame o) (.tmp 0)] | none => []) s3 = some s4 ∧ s4.m = s3.m ∧
      (∀ r, (r = .tmp 0 → S.ret = none) → s4.r r = s3.r r) ∧ ∀ o, S.ret = some o → s4.r (.tmp 0) = E.bp + BitVec.ofInt 64 o := by
    cases hr : S.ret with
    | none => exact ⟨s3, rfl, rfl, fun _ _ => rfl, fun o ho => by cases ho⟩
    | some o =>
      refine ⟨s3.setR (.tmp 0) (ea E.sym s3 (.frame o)), rfl, rfl, fun r hr => setR_other _ _ _ _ (fun e => by have := hr e; cases this), fun o' ho => ?_⟩
      injection ho with ho; subst ho
      rw [setR_same]
      show s3.r .bp + _ = _
      rw [I3.bp]
  have hK0 : ∀ o, S.ret = some o → h = 1 ∧ 0 < K := by
    intro o ho
    have h1 : h = 1 := by rw [← hh, ho]; rfl
    exact ⟨h1, C.regs 0 (by omega) 0 rfl⟩
  have y3a : ∀ k, h ≤ k → k < 6 → s4.r (argReg k) = s3.r (argReg k) := by
    intro k hk h6
    refine y3 _ fun e => ?_
    cases hr : S.ret with
    | none => rfl
    | some o =>
      have := (hK0 o hr).1
      exact absurd e (argReg_inj h6 (show 0 < 6 by omega) (by omega))
  refine doesC_seq _ _ _ s3 (fun s' => s' = s4) _ (doesC_inss _ _ s3 s4 _ y1 ⟨y3 _ (by simp), fun i hi _ => y3 _ fun e => ?_, fun a _ _ _ => by rw [y2]⟩ rfl) fun s4' _ e => ?_
  · cases hr : S.ret with
    | none => rfl
    | some o =>
      have := (hK0 o hr).2
      injection e with e
      omega
  subst e
  -- the number of vector registers
  have hfp : (CC.Cnt.fpCount { gp := h + S.args.length, fp := 0, stack := 8 * (h + S.args.length - 6), maxAlign := 16 }) = 0 := rfl
  rw [hfp]
  rw [if_neg (show ¬ ((0 : Nat) ≠ 0) from fun h => h rfl)]
  obtain ⟨s5, z1, z2, z3, z4⟩ : ∃ s5, execs E.sym (if S.variadic = true then [.alu .xor 1 (.reg .ax) (.reg .ax)] else []) s4' = some s5 ∧ s5.m = s4'.m ∧
      (∀ r, r ≠ .ax → s5.r r = s4'.r r) ∧ (S.variadic = true → (s5.r .ax).setWidth 8 = 0#8) := by
    by_cases hv : S.variadic = true
    · rw [if_pos hv]
      refine ⟨{ s4'.setR .ax (X86.put 1 (s4'.r .ax) (aluOp .xor (X86.get E.sym s4' 1 (.reg .ax)) (X86.get E.sym s4' 1 (.reg .ax)))) with f := none },
        rfl, rfl, fun r hr => setR_other s4' _ _ _ hr, fun _ => ?_⟩
      show ((St.setR s4' .ax _).r .ax).setWidth 8 = _
      rw [setR_same]
      have := put1_exact (s4'.r .ax) (aluOp .xor (X86.get E.sym s4' 1 (.reg .ax)) (X86.get E.sym s4' 1 (.reg .ax)))
      have e0 : aluOp .xor (X86.get E.sym s4' 1 (.reg .ax)) (X86.get E.sym s4' 1 (.reg .ax)) = 0 := BitVec.xor_self
      rw [e0] at this ⊢
      unfold zx at this
      have := congrArg (fun x : Word => x.setWidth 8) this
      rw [← setR_same s4' .ax (X86.put 1 (s4'.r .ax) 0)] at this
      simpa using this
    · rw [if_neg hv]
      exact ⟨s4', rfl, rfl, fun _ _ => rfl, fun h => absurd h hv⟩
  have nax : ∀ k, h ≤ k → k < 6 → argReg k ≠ .ax := by
    have : ∀ k, k < 6 → argReg k ≠ .ax := by decide
    exact fun k _ hk => this k hk
  refine doesC_inss _ _ s4' s5 _ z1 ⟨z3 _ (by simp), fun i _ _ => z3 _ (by simp), fun a _ _ _ => by rw [z2]⟩ ?_
  have e4 : s4'.r .sp = s3.r .sp := y3 _ (by simp)
  refine ⟨?_, ?_, by rw [z2, y2]; exact R3, ?_, fun o ho => ?_, z4⟩
  · rw [z3 _ (by simp), y3 _ (by simp), I3.bp]
  · rw [z3 _ (by simp), e4, I3.spr]
  · rw [hh']
    refine pass s5 (by rw [z3 _ (by simp), e4, I3.spr]) (z2.trans y2) fun k a b => ?_
    rw [z3 _ (nax k a b), y3a k a b]
  · rw [z3 _ (by simp)]
    exact y4 o ho

/-! The call through a pointer: the address of the function is kept while the arguments are computed. -/

theorem fn_tmp {W : Word → Prop} (hok : E.Ok) (body : G) (c : Nat) (s : St) (Q : St → Prop) (hbp : s.r .bp = E.bp)
    (hK : (tmp (pushIns E.stk true .ax) body (fnPop E.stk) c).1.st ≤ E.K) (hW : ∀ b, W b → ∀ k, k < E.K → ¬ InBlk (E.slot k) 8 b)
    (hbody : ∀ s1 : St, s1.r .bp = E.bp → s1.r .sp = s.r .sp → (∀ σ, Rel E σ s.m → Rel E σ s1.m) → DoesC E P W (body c).1.gp (body c).1.st (body c).1 s1 Q) :
    ∀ pc, CodeAt P pc (tmp (pushIns E.stk true .ax) body (fnPop E.stk) c).1.code →
      ∃ s' s2, Runs E.sym P (pc, s) (pc + (tmp (pushIns E.stk true .ax) body (fnPop E.stk) c).1.code.length, s') ∧ Q s2 ∧ s'.m = s2.m ∧ (∀ r, r ≠ .tmp 4 → s'.r r = s2.r r) ∧
        s'.r (fnReg (slot (body c).1.gp (body c).1.st)) = s.r .ax ∧
        (∀ a, ¬ W a → E.Outside (tmp (pushIns E.stk true .ax) body (fnPop E.stk) c).1.st a → s'.m a = s.m a) := by
  have hpush : ∃ s1, execs E.sym (pushIns E.stk true .ax (slot (body c).1.gp (body c).1.st)) s = some s1 ∧
      s1.r .bp = E.bp ∧ s1.r .sp = s.r .sp ∧ (∀ σ, Rel E σ s.m → Rel E σ s1.m) ∧
      (∀ a, E.Outside (tmp (pushIns E.stk true .ax) body (fnPop E.stk) c).1.st a → s1.m a = s.m a) ∧
      Saved E (slot (body c).1.gp (body c).1.st) 8 (s.r .ax) s1 := by
    unfold tmp at hK ⊢
    unfold slot at hK ⊢
    dsimp only at hK ⊢
    by_cases h : (body c).1.gp < GP_SLOTS
    · simp only [if_pos h] at hK ⊢
      refine ⟨_, rfl, ?_, ?_, fun σ hσ => hσ, fun _ _ => rfl, ?_⟩
      · rw [setR_other _ _ _ _ (by simp), hbp]
      · rw [setR_other _ _ _ _ (by simp)]
      · show (St.setR _ _ _).r _ = _
        rw [setR_same, put_rsz]; simp only [X86.get, zx_zx]; rfl
    · simp only [if_neg h] at hK ⊢
      have hea := ea_slot (E := E) (body c).1.st s hbp
      refine ⟨_, rfl, hbp, rfl, fun σ hσ => ?_, fun a ha => ?_, ?_⟩
      · refine rel_congr hσ fun a x hx ha => ?_
        dsimp only
        rw [hea]
        exact wr_other _ _ _ _ _ fun hc => hok.slots x _ hx (by omega : (body c).1.st < E.K) a ⟨ha, hc⟩
      · dsimp only
        rw [hea]
        exact wr_other _ _ _ _ _ fun hc => ha.2 (body c).1.st (by omega) hc
      · unfold Saved
        dsimp only
        rw [hea, show rsz true = 8 from rfl, rd_wr_same _ _ _ _ (Nat.le_refl _)]
        simp only [X86.get, zx_zx]
  obtain ⟨s1, p1, p2, p3, p4, p5, p6⟩ := hpush
  intro pc hc
  have hg := tmp_gp (pushIns E.stk true .ax) body (fnPop E.stk) c
  have hcode : (tmp (pushIns E.stk true .ax) body (fnPop E.stk) c).1.code =
      (pushIns E.stk true .ax (slot (body c).1.gp (body c).1.st)).map .ins ++ (body c).1.code ++
        (fnPop E.stk (slot (body c).1.gp (body c).1.st)).map .ins := rfl
  rw [hcode] at hc
  rw [codeAt_append, codeAt_append] at hc
  obtain ⟨⟨c1, c2⟩, c3⟩ := hc
  have r1 := runs_execs P E.sym _ _ _ p1 pc c1
  rw [List.length_map] at c2
  obtain ⟨s2, r2, e2, q2⟩ := hbody s1 p2 p3 p4 _ c2
  have hbp2 : s2.r .bp = E.bp := e2.bp.trans p2
  have hsv : Saved E (slot (body c).1.gp (body c).1.st) 8 (s.r .ax) s2 := by
    have hK' : slot (body c).1.gp (body c).1.st = .stk (body c).1.st → (body c).1.st < E.K := by
      intro e
      unfold tmp at hK
      dsimp only at hK
      rw [e] at hK
      dsimp only at hK
      omega
    have hR' : ∀ i, slot (body c).1.gp (body c).1.st = .reg i → i = (body c).1.gp ∧ i < GP_SLOTS := by
      intro i e; unfold slot at e; split at e
      · injection e with e; subst e; exact ⟨rfl, by assumption⟩
      · cases e
    have hS' : ∀ k, slot (body c).1.gp (body c).1.st = .stk k → k = (body c).1.st := by
      intro i e; unfold slot at e; split at e
      · cases e
      · injection e with e; exact e.symm
    revert p6 hK' hR' hS'
    generalize slot (body c).1.gp (body c).1.st = l
    intro hsv hK' hR' hS'
    cases l with
    | reg i =>
      show s2.r _ = _
      have hsv : s1.r (.tmp i) = _ := hsv
      rw [e2.regs i (by rw [(hR' i rfl).1]; exact Nat.le_refl _) (hR' i rfl).2, hsv]
    | stk k =>
      have := hS' k rfl
      subst this
      show rd s2.m _ _ = _
      have hsv : rd s1.m (E.slot (body c).1.st) 8 = _ := hsv
      have hk := hK' rfl
      rw [← hsv]
      refine rd_congr _ _ _ _ (Nat.le_refl _) fun a ha => e2.mem a (fun hw => hW a hw _ hk ha) (fun x hx hax => ?_) fun k hk' hak => ?_
      · exact hok.slots x _ hx hk a ⟨hax, ha⟩
      · exact slots_disj E hok k (body c).1.st (by omega) hk (by omega) a ⟨hak, ha⟩
  obtain ⟨s3, x3, r3, m3, o3⟩ : ∃ s3, execs E.sym (fnPop E.stk (slot (body c).1.gp (body c).1.st)) s2 = some s3 ∧
      s3.r (fnReg (slot (body c).1.gp (body c).1.st)) = s.r .ax ∧ s3.m = s2.m ∧ ∀ r, r ≠ .tmp 4 → s3.r r = s2.r r := by
    revert hsv
    generalize slot (body c).1.gp (body c).1.st = l
    intro hsv
    cases l with
    | reg i => exact ⟨s2, rfl, by have := hsv; unfold Saved at this; rw [zx8] at this; exact this, rfl, fun _ _ => rfl⟩
    | stk k =>
      refine ⟨s2.setR (.tmp 4) (s.r .ax), ?_, setR_same _ _ _, rfl, fun r hr => setR_other _ _ _ _ hr⟩
      have hsv : rd s2.m (E.slot k) 8 = zx 8 (s.r .ax) := hsv
      rw [zx8] at hsv
      simp only [fnPop, execs, exec, put', X86.get, put_of_rop 8 _ _ (Or.inr rfl), zx8, Option.bind_some, ea_slot k s2 hbp2, hsv]
  rw [List.length_append, List.length_map, ← Nat.add_assoc] at c3
  have r3' := runs_execs P E.sym _ _ _ x3 _ c3
  refine ⟨s3, s2, ?_, q2, m3, o3, r3, fun a hw ha => ?_⟩
  · rw [hcode, List.length_append, List.length_append, List.length_map, List.length_map, ← Nat.add_assoc, ← Nat.add_assoc]
    exact (r1.trans r2).trans r3'
  · rw [m3, e2.mem a hw ha.1 fun k hk => ha.2 k (by omega), p5 a ha]

/-- The state at the call instruction does not depend on %r10. -/
theorem handed_r10 {as : List Actual} {ret : Option Int} {vr : Bool} {σ : Store} {vs : List Int} {sp : Word} {s s' : St} (h : Handed E as ret vr σ vs sp s)
    (hm : s'.m = s.m) (hr : ∀ r, r ≠ .tmp 4 → s'.r r = s.r r) : Handed E as ret vr σ vs sp s' := by
  refine ⟨by rw [hr _ (by simp)]; exact h.bp, by rw [hr _ (by simp)]; exact h.sp, by rw [hm]; exact h.rel, fun i a v ha hv => ?_, fun o ho => ?_, fun hv => ?_⟩
  · have := h.args i a v ha hv
    generalize (if ret.isSome = true then 1 else 0) + i = k at this ⊢
    unfold Passed at this ⊢
    by_cases h6 : k < 6
    · rw [argRegister_lt h6] at this ⊢
      dsimp only at this ⊢
      rw [hr]
      · exact this
      · have : ∀ k, k < 6 → argReg k ≠ .tmp 4 := by decide
        exact this k h6
    · rw [argRegister_ge h6] at this ⊢
      dsimp only at this ⊢
      rw [hr _ (by simp), hm]; exact this
  · rw [hr _ (by simp)]; exact h.result o ho
  · rw [hr _ (by simp)]; exact h.vector hv

/-- A narrow result is extended. -/
theorem widen_calc (t : CTy) (v : Int) (s : St) (hv : InRange t v) (h : Low t.bytes v (s.r .ax)) :
    Calc E (if (ity t).size < 4 then [.movx (!(ity t).uns) (ity t).size 4 (.reg .ax) .ax] else []) s fun s' => InReg t v (s'.r .ax) := by
  rw [bytes_size] at h
  have hr : InRange (cty (ity t)) v := by rw [cty_ity]; exact hv
  by_cases h4 : (ity t).size < 4
  · rw [if_pos h4]
    have hs : (ity t).size = 1 ∨ (ity t).size = 2 := by have := size_cases (ity t); omega
    have hext := ext_low (ity t) v _ (ity_wf t) hr h
    refine calc_setR' _ s .ax (zx 4 (BitVec.ofInt 64 v)) _ ?_ scratch_ax ?_
    · simp only [exec, X86.get, put_of_rop 4 _ _ (Or.inl rfl)]
      congr 3
      rw [← hext]
      cases (ity t).uns <;> simp [sx_zx]
    · rw [← reps_inReg, setR_same]
      refine ⟨by rw [rop_small _ (by omega)]; exact (Low.of_eq 4 v (by omega)).zx, fun hb => ?_⟩
      have hu : (ity t).uns = true := by
        have := ity_wf t
        unfold ITy.wf at this; rw [hb] at this; exact this
      exact exact_small _ v (ity_wf t) hr hu (by omega)
  · rw [if_neg h4]
    refine calc_nil s _ ?_
    rw [← reps_inReg]
    exact Reps.big (by omega) h

end
end Slimcc
