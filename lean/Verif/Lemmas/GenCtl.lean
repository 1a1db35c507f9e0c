import Verif.Lemmas.GenOpt2
/-! Conditions, expressions without a result, and the whole generator. -/
set_option autoImplicit false
namespace Slimcc
open Slimcc.Spec Slimcc.Spec.CTy Slimcc.Ty Slimcc.X86 Slimcc.Gen

section
variable {E : Env} {P : List Line} {opt : Bool}

theorem jump_flags (op : CmpOp) (p : Bool) (t : ITy) (a b : Int) (x y : Word) (hw : t.wf = true) (ha : InRange (cty t) a) (hb : InRange (cty t) b)
    (hx : Low t.size a x) (hy : Low t.size b y) :
    (cmpCC (flipCmp op (!p)) t.uns).holds (cmpFlags t.size x y) = (p == decide (cmpVal op a b ≠ 0)) := by
  have h := cmp_flags (flipCmp op (!p)) t a b x y hw ha hb hx hy
  have h01 := compare_range op a b
  rw [cmp_flip] at h
  rw [Bool.eq_iff_iff, h]
  rcases h01 with e | e <;> rw [e] <;> cases p <;> simp

theorem test_jump (l : Label) (p : Bool) (c : Nat) (s : St) (w : Int) (Q : Mem → Prop) (h : s.r .ax = BitVec.ofInt 64 w) (h01 : w = 0 ∨ w = 1) (hq : Q s.m) :
    DoesJ E P (lines [.ins (.test 1 (.reg .ax) (.reg .ax)), .jcc (if p then .ne else .e) l] c).1 l s (p == decide (w ≠ 0)) fun s' => Q s'.m := by
  have hl : lines [.ins (.test 1 (.reg .ax) (.reg .ax)), .jcc (if p then .ne else .e) l] = (inss [.test 1 (.reg .ax) (.reg .ax)] ;; lines [.jcc (if p then .ne else .e) l]) := rfl
  rw [hl]
  refine doesJ_seq _ _ l c s _ (fun s' => s'.f = some (testFlags 1 (zx 1 (s.r .ax))) ∧ Q s'.m) _
    (does_calc (Q := fun s' => s'.f = some (testFlags 1 (zx 1 (s.r .ax)))) ?_ (fun s' hm q => ⟨q, by rw [hm]; exact hq⟩) c) fun s1 _ q1 => ?_
  · refine calc_flags _ s _ _ (by simp only [exec, X86.get, BitVec.and_self]) rfl
  · have := doesJ_jcc (E := E) (P := P) l (inss [.test 1 (.reg .ax) (.reg .ax)] c).2 s1 (if p then .ne else .e) _ (fun s' => Q s'.m) q1.1 q1.2
    have e : (if p then CC.ne else CC.e).holds (testFlags 1 (zx 1 (s.r .ax))) = (p == decide (w ≠ 0)) := by
      rw [h]
      rcases h01 with rfl | rfl <;> cases p <;> rfl
    rw [e] at this
    exact this

theorem jump_sym (j flip : Bool) (v w : Int) (h01 : w = 0 ∨ w = 1) (hv : v = if flip then 1 - w else w) :
    (j == decide (v ≠ 0)) = ((j ^^ flip) == decide (w ≠ 0)) := by
  rw [hv]
  rcases h01 with rfl | rfl <;> cases j <;> cases flip <;> rfl

theorem condPlain_ok (recE : Node → G) (j : Bool) (l : Label) (n : Node) (hE : ExprOk E P opt (recE n) n) : CondOk E P opt (condPlain recE j l n) j l n := by
  intro nt acc σ s v σ' c hp hnn hbool h hK
  refine doesJ_seq _ _ l c s _ _ _ (hE nt acc σ s v σ' c hp h (seq_st_le hK).1) fun s1 e1 q1 => ?_
  exact test_jump l j _ s1 v (Rel E σ') (q1.2.boolish hbool) (boolish_val hbool (hp.range h).1 h) q1.1

theorem condOn_ok (hok : E.Ok) (hu : UniqueLabels P) (hs : HostShift) (ho : opt = true) (recE : Node → G) (recC : Bool → Label → Node → G) (p : Bool) (l : Label) (e : Node)
    (hE : ∀ m, weight m ≤ weight e → ExprOk E P opt (recE m) m) (hC : ∀ m j l, weight m < weight e → CondOk E P opt (recC j l m) j l m) :
    CondOk E P opt (condOn hs opt E.loc E.stk recE recC p l e) p l e := by
  intro nt acc σ s w σ' c hp hnn hbool hw hK
  have h01 := boolish_val hbool (hp.range hw).1 hw
  unfold condOn at hK ⊢
  cases hev : evalNode hs e with
  | ok u =>
    obtain ⟨rfl, rfl⟩ := const_val hs hp.accr hp.wf hp.sok hev hw
    dsimp only
    rcases h01 with rfl | rfl <;> cases p
    · exact doesJ_jmp l c s _ hp.rel
    · exact doesJ_nil l c s _ hp.rel
    · exact doesJ_nil l c s _ hp.rel
    · exact doesJ_jmp l c s _ hp.rel
  | _ =>
    rw [hev] at hK
    dsimp only at hK ⊢
    have hpl := condPlain_ok (E := E) (P := P) (opt := opt) recE p l e (hE e (Nat.le_refl _)) nt acc σ s w σ' c hp hnn hbool hw
    cases e with
    | cmp op a b =>
      simp only [neval, bind_ok_iff, Res.ok.injEq, Prod.mk.injEq] at hw
      obtain ⟨⟨va, σ1⟩, h1, ⟨vb, σ2⟩, h2, rfl, rfl⟩ := hw
      have hEa := hE a (by simp only [weight]; omega)
      have hEb := hE b (by simp only [weight]; omega)
      dsimp only at hK ⊢
      cases hc : cmpOpt hs E.loc recE op a b with
      | some gp =>
        obtain ⟨g, op'⟩ := gp
        rw [hc] at hK
        dsimp only at hK ⊢
        refine doesJ_seq _ _ l c s _ _ _ (cmpOpt_ok hok hs recE op op' a b g hc ho hp h1 h2 hEa hEb c (seq_st_le hK).1) fun s1 e1 q1 => ?_
        obtain ⟨hrel, p', q', ⟨x, y, hx, hy, hf⟩, hrp, hrq, hveq⟩ := q1
        have := doesJ_jcc (E := E) (P := P) l (g c).2 s1 (cmpCC (flipCmp op' (!p)) a.ty.uns) _ (fun s' => Rel E σ2 s'.m) hf hrel
        rw [jump_flags op' p a.ty p' q' x y (wf_ty _ hp.wf.2.2.1) hrp hrq hx hy, hveq] at this
        exact this
      | none =>
        rw [hc] at hK
        dsimp only at hK ⊢
        obtain ⟨htb, h4, hwa, hwb⟩ := hp.wf
        have hpa : Pre E opt nt acc a σ s := hp.left hwa hp.stat.1 fun h => h.1
        have ra := hpa.range h1
        have rb := neval_range hp.accr b σ1 hwb ra.2 vb σ2 h2
        have hwt := wf_ty _ hwa
        have hrt : rop a.ty = a.ty.size := rop_big _ h4
        rw [htb] at rb
        refine doesJ_seq _ _ l c s _ _ _ (binary_ok hok recE a b _ c s (fun s' => Compared a.ty va vb s'.f) hpa hwb hp.stat.2.1 hp.stat.2.2.1 h1 h2 hEa hEb (seq_st_le hK).1
          fun i s2 q1 q2 _ => ?_) fun s1 e1 q1 => ?_
        · rw [hrt] at q1 ⊢
          have qb := q2.1.low
          rw [htb] at qb
          refine ((cmp_calc a.ty va vb (.reg .ax) (.reg (.tmp i)) s2 q1.zx qb.zx).imp fun s3 _ q => ?_).toR _
          obtain ⟨x, y, hx, hy, hf, _⟩ := q
          exact ⟨x, y, hx, hy, hf⟩
        · obtain ⟨hrel, x, y, hx, hy, hf⟩ := q1
          have := doesJ_jcc (E := E) (P := P) l (binary E.stk recE a b (fun r => [.cmp (rop a.ty) (.reg .ax) (.reg r)]) c).2 s1 (cmpCC (flipCmp op (!p)) a.ty.uns) _ (fun s' => Rel E σ2 s'.m) hf hrel
          rw [jump_flags op p a.ty va vb x y hwt ra.1 rb.1 hx hy] at this
          exact this
    | logand a b =>
      have hCa := fun j l => hC a j l (by simp only [weight]; omega)
      have hCb := fun j l => hC b j l (by simp only [weight]; omega)
      dsimp only at hK ⊢
      cases p with
      | false =>
        simp only [if_true] at hK ⊢
        exact logical_jump recC false a b l c s hp hw hK (hCa _ _) (hCb _ _)
      | true =>
        simp only [Bool.true_eq_false, if_false] at hK ⊢
        unfold withLabel at hK ⊢
        dsimp only at hK ⊢
        rw [← seq_assoc] at hK ⊢
        have := doesJ_over hu _ l (.short c) (c + 1) s _ _ (logical_jump recC false a b (.short c) (c + 1) s hp hw (seq_st_le hK).1 (hCa _ _) (hCb _ _))
        have e : (!(false == decide (w ≠ 0))) = (true == decide (w ≠ 0)) := by cases decide (w ≠ 0) <;> rfl
        rw [e] at this
        exact this
    | logor a b =>
      have hCa := fun j l => hC a j l (by simp only [weight]; omega)
      have hCb := fun j l => hC b j l (by simp only [weight]; omega)
      dsimp only at hK ⊢
      cases p with
      | true =>
        simp only [if_true] at hK ⊢
        exact logical_jump recC true a b l c s hp hw hK (hCa _ _) (hCb _ _)
      | false =>
        simp only [Bool.false_eq_true, if_false] at hK ⊢
        unfold withLabel at hK ⊢
        dsimp only at hK ⊢
        rw [← seq_assoc] at hK ⊢
        have := doesJ_over hu _ l (.short c) (c + 1) s _ _ (logical_jump recC true a b (.short c) (c + 1) s hp hw (seq_st_le hK).1 (hCa _ _) (hCb _ _))
        have e : (!(true == decide (w ≠ 0))) = (false == decide (w ≠ 0)) := by cases decide (w ≠ 0) <;> rfl
        rw [e] at this
        exact this
    | cast t x =>
      dsimp only at hK ⊢
      by_cases htb : t.kind = .bool
      · rw [if_pos htb] at hK ⊢
        simp only [neval, bind_ok_iff, Res.ok.injEq, Prod.mk.injEq] at hw
        obtain ⟨⟨u, σ1⟩, h1, rfl, rfl⟩ := hw
        have hz := cmpZero_val (opt := opt) hs hp.accr x .ne σ σ1 u hp.wf.2 hp.sok h1
        have hwz := cmpZero_weight hs opt x .ne (wf_ty _ hp.wf.2)
        have hpz : Pre E opt nt acc (cmpZero hs opt x .ne) σ s :=
          ⟨hz.1, hp.accr, cmpZero_stat hs opt E.dom x _ hp.stat, hp.sok, hp.bp, hp.rel, Or.inl (cmpZero_noNull hs opt x _ hnn)⟩
        have := hC _ p l (by simp only [weight, htb, if_true]; omega) nt acc σ s _ σ1 c hpz (cmpZero_noNull hs opt x _ hnn) (Or.inr rfl) hz.2 hK
        have e : (p == decide (cmpVal .ne u 0 ≠ 0)) = (p == decide (conv (cty t) u ≠ 0)) := by
          rw [(cty_bool t).2 htb]
          by_cases h0 : u = 0 <;> simp [cmpVal, truth, conv, h0]
        rw [e] at this
        exact this
      · rw [if_neg htb] at hK ⊢
        exact hpl hK
    | _ => exact hpl hK

/-- A condition jumps if its value is the wanted one. -/
theorem condCode_ok (hok : E.Ok) (hu : UniqueLabels P) (hs : HostShift) (recE : Node → G) (recC : Bool → Label → Node → G) (j : Bool) (l : Label) (n : Node)
    (hE : ∀ m, weight m ≤ weight n → ExprOk E P opt (recE m) m) (hC : ∀ m j l, weight m < weight n → CondOk E P opt (recC j l m) j l m) :
    CondOk E P opt (condCode hs opt E.loc E.stk recE recC j l n) j l n := by
  intro nt acc σ s v σ' c hp hnn hbool h hK
  unfold condCode at hK ⊢
  by_cases ho : opt = true
  · rw [if_pos ho] at hK ⊢
    rcases boolOpt_good (E := E) (opt := opt) nt n false none hp.wf hp.stat with ⟨h0, _⟩ | ⟨e, flip, he, hgd⟩
    · exact absurd hbool h0
    · rw [he] at hK ⊢
      dsimp only at hK ⊢
      rw [Bool.xor_false] at hgd
      obtain ⟨w, hw, h01, hv⟩ := hgd.val acc σ v σ' hp.accr hp.sok h
      have hle : weight e ≤ weight n := by
        rcases hgd.small with rfl | h
        · exact Nat.le_refl _
        · omega
      rw [jump_sym j flip v w h01 hv]
      exact condOn_ok hok hu hs ho recE recC (j ^^ flip) l e (fun m hm => hE m (by omega)) (fun m j l hm => hC m j l (by omega)) nt acc σ s w σ' c (hp.good hgd) (hgd.nn hnn) hgd.bool hw hK
  · rw [if_neg ho] at hK ⊢
    exact condPlain_ok recE j l n (hE n (Nat.le_refl _)) nt acc σ s v σ' c hp hnn hbool h hK

/-- Writing the bytes of a value to a variable. -/
theorem does_write (hok : E.Ok) {σ : Store} (x : Nat) (v : Int) (y : Word) (l : List Ins) (s s' : St) (hx : E.dom x) (hrel : Rel E σ s.m)
    (he : execs E.sym l s = some s') (hm : s'.m = wr s.m (E.addr x) (E.size x) y) (hr : ∀ r, ¬ Scratch r → s'.r r = s.r r) (hl : Low (E.size x) v y) (c : Nat) :
    Does E P (inss l c).1 s fun s' => Rel E (σ.set x v) s'.m := by
  refine does_inss l s s' _ he (eff_var hok hx s s' y hm fun r h => hr r ?_) ?_ c
  · rcases h with rfl | ⟨i, rfl⟩ | rfl
    · exact nbp
    · exact ntmp i
    · exact nsp
  · rw [hm]; exact rel_set hok hrel hx v y hl

theorem copyFrom_val {nt : ITy} {acc : Int} {t : ITy} {r : Node} {y : Nat} {σ σ' : Store} {v : Int} (hc : copyFrom t r = some y) (hrt : r.ty = t) (hwf : WfNode E.Γ nt r)
    (h : neval acc r σ = .ok (v, σ')) : σ' = σ ∧ y ∈ nvars r ∧ t.size ≤ E.size y ∧ (2 : Int) ^ (8 * t.size) ∣ σ y - v := by
  unfold copyFrom at hc
  split at hc
  · rename_i z hz
    injection hc with hc
    subst hc
    obtain ⟨h1, _, h3, h4, h5⟩ := memop_val hz hwf h
    rw [hrt] at h4 h5
    exact ⟨h1, h3, by omega, h5⟩
  · split at hc
    · rename_i t' e _
      split at hc
      · rename_i hsz
        simp only [Node.ty] at hrt
        subst hrt
        simp only [neval, bind_ok_iff, Res.ok.injEq, Prod.mk.injEq] at h
        obtain ⟨⟨w, σ1⟩, h1, rfl, rfl⟩ := h
        obtain ⟨h1, _, h3, h4, h5⟩ := memop_val hc hwf.2 h1
        refine ⟨h1, h3, by omega, ?_⟩
        have d1 := dvd_low hsz.1 h5
        have d2 := conv_dvd (cty t') w t'.size (fun e => hsz.2 ((cty_bool t').1 e)) (by rw [cty_width t' hsz.2]; exact Nat.le_refl _)
        exact Int.dvd_trans (Int.dvd_add d1 d2) ⟨1, by simp only; omega⟩
      · cases hc
    · cases hc

/-- An instruction with a constant: through %rdx if it does not fit. -/
theorem immTmpl_write (f : Opd → Ins) (v : Word) (s : St) (m' : Mem) (h : ∀ s1 o, s1.m = s.m → (∀ r, r ≠ .dx → s1.r r = s.r r) →
      (∀ sz, sz ≤ 8 → X86.get E.sym s1 sz o = zx sz v) → ∃ s2, exec E.sym (f o) s1 = some s2 ∧ s2.m = m' ∧ (∀ r, ¬ Scratch r → s2.r r = s1.r r)) :
    ∃ s2, execs E.sym (immTmpl f v) s = some s2 ∧ s2.m = m' ∧ (∀ r, ¬ Scratch r → s2.r r = s.r r) := by
  have reg : ∀ z, z = 4 ∨ z = 8 → zx z v = v → ∃ s2, execs E.sym [.mov z (.imm v) (.reg .dx), f (.reg .dx)] s = some s2 ∧ s2.m = m' ∧
      (∀ r, ¬ Scratch r → s2.r r = s.r r) := by
    intro z hz hv
    have e1 : exec E.sym (.mov z (.imm v) (.reg .dx)) s = some (s.setR .dx v) := by
      simp only [exec, put', X86.get, put_of_rop _ _ _ hz, zx_zx, hv]
    obtain ⟨s2, h1, h2, h3⟩ := h (s.setR .dx v) (.reg .dx) rfl (fun r hr => setR_other _ _ _ _ hr) (fun sz _ => by simp only [X86.get]; rw [setR_same])
    refine ⟨s2, by simp only [execs, e1, Option.bind_some, h1], h2, fun r hr => (h3 r hr).trans (setR_other _ _ _ _ fun e => hr (e ▸ scratch_dx))⟩
  unfold immTmpl
  split
  · obtain ⟨s2, h1, h2, h3⟩ := h s (.imm v) rfl (fun _ _ => rfl) (fun _ _ => rfl)
    exact ⟨s2, by simp only [execs, h1, Option.bind_some], h2, h3⟩
  · split
    · rename_i e; exact reg 4 (Or.inl rfl) e.symm
    · exact reg 8 (Or.inr rfl) (zx8 v)

theorem exec_store (sz : Nat) (o : Opd) (m : MemOp) (s : St) :
    exec E.sym (.mov sz o (.mem m)) s = some { s with m := wr s.m (ea E.sym s m) sz (X86.get E.sym s sz o) } := rfl

theorem put_same (sz : Nat) (o x : Word) : SameLow sz (put sz o x) x := by
  unfold put SameLow
  split
  · rfl
  · split
    · rename_i h; subst h; exact sameLow_zx 4 x
    · ext i hi
      simp only [BitVec.getElem_setWidth, BitVec.getLsbD_or, BitVec.getLsbD_shiftLeft, zx, BitVec.getLsbD_setWidth]
      by_cases h64 : i < 64
      · simp [hi, h64]
      · simp [h64, BitVec.getLsbD_of_ge x i (by omega)]

theorem exec_alu_mem (op : Alu) (sz : Nat) (o : Opd) (m : MemOp) (s : St) :
    exec E.sym (.alu op sz o (.mem m)) s = some { s with m := wr s.m (ea E.sym s m) sz (aluOp op (X86.get E.sym s sz (.mem m)) (X86.get E.sym s sz o)), f := none } := rfl

theorem voidAssign_ok (hok : E.Ok) (hs : HostShift) (recE : Node → G) (t : ITy) (x : Nat) (r : Node)
    (hE : ExprOk E P opt (recE (.assign t x r)) (.assign t x r)) : VoidOk E P opt (voidAssign hs E.loc recE t x r) (.assign t x r) := by
  intro nt acc σ s v σ' c hp hnn h hK
  have hev := h
  simp only [neval, bind_ok_iff, Res.ok.injEq, Prod.mk.injEq] at h
  obtain ⟨⟨a, σ1⟩, h1, rfl, rfl⟩ := h
  obtain ⟨ht, hrt, hwr⟩ := hp.wf
  obtain ⟨hx, hsr, hnr⟩ := hp.stat
  have hsz : t.size = E.size x := by rw [ht, E.size_eq]
  have h8 := E.size_le x
  unfold voidAssign at hK ⊢
  cases hv : evalNode hs r with
  | ok u =>
    dsimp only
    obtain ⟨rfl, rfl⟩ := const_val hs hp.accr hwr hp.sok hv h1
    obtain ⟨s2, x2, m2, r2⟩ := immTmpl_write (E := E) (fun o => .mov t.size o (.mem (E.loc x))) (limitImm (BitVec.ofInt 64 a) t.size) s
      (wr s.m (E.addr x) t.size (zx t.size (limitImm (BitVec.ofInt 64 a) t.size))) fun s1 o hm hr ho => by
        refine ⟨_, exec_store _ _ _ _, ?_, fun r _ => rfl⟩
        simp only
        rw [ea_loc hok hx s1 ((hr .bp (by simp)).trans hp.bp), ho _ (by omega), hm]
    rw [hsz] at m2
    exact does_write hok x a _ _ s s2 hx hp.rel x2 m2 r2 (limitImm_low a _ h8).zx c
  | _ =>
    rw [hv] at hK
    dsimp only at hK ⊢
    cases hc : copyFrom t r with
    | some y =>
      dsimp only
      obtain ⟨rfl, hin, hle, hd⟩ := copyFrom_val hc hrt hwr h1
      have hdy := stat_dom r y hsr hin
      refine does_write hok x a (X86.get E.sym (s.setR .dx (put t.size (s.r .dx) (X86.get E.sym s t.size (.mem (E.loc y))))) t.size (.reg .dx)) _ s
        { s.setR .dx (put t.size (s.r .dx) (X86.get E.sym s t.size (.mem (E.loc y)))) with
          m := wr s.m (ea E.sym (s.setR .dx (put t.size (s.r .dx) (X86.get E.sym s t.size (.mem (E.loc y))))) (E.loc x)) t.size
            (X86.get E.sym (s.setR .dx (put t.size (s.r .dx) (X86.get E.sym s t.size (.mem (E.loc y))))) t.size (.reg .dx)) } hx hp.rel rfl ?_ (fun r hr => setR_other _ _ _ _ fun e => hr (e ▸ scratch_dx)) ?_ c
      · simp only
        rw [ea_loc hok hx _ (show (s.setR .dx _).r .bp = E.bp from hp.bp), hsz]
      · rw [← hsz]
        simp only [X86.get, setR_same]
        have hlow := low_var hok hdy hp.bp hp.rel t.size hle hd
        exact (hlow.same (put_same t.size _ _)).zx
    | none =>
      rw [hc] at hK
      dsimp only at hK ⊢
      exact (hE nt acc σ s _ _ c hp hev hK).imp fun s' _ q => q.1

theorem voidArith_ok (hok : E.Ok) (hs : HostShift) (recE : Node → G) (k : AKind) (t : ITy) (x : Nat) (r : Node)
    (hE : ∀ m, weight m ≤ weight (.arithAssign k t x r) → ExprOk E P opt (recE m) m) : VoidOk E P opt (voidArith hs opt E.loc recE k t x r) (.arithAssign k t x r) := by
  intro nt acc σ s v σ' c hp hnn h hK
  have plain : ((recE (.arithAssign k t x r)) c).1.st ≤ E.K → Does E P ((recE (.arithAssign k t x r)) c).1 s fun s' => Rel E σ' s'.m := fun hK =>
    (hE _ (Nat.le_refl _) nt acc σ s v σ' c hp h hK).imp fun s' _ q => q.1
  cases k with
  | sh q => exact plain hK
  | ar op =>
    unfold voidArith at hK ⊢
    dsimp only at hK ⊢
    cases ha : (if op = .mul then none else aluOf op) with
    | none =>
      rw [ha] at hK
      exact plain hK
    | some ins =>
      rw [ha] at hK
      dsimp only at hK ⊢
      split at hK
      · rename_i hc
        rw [if_pos hc]
        simp only [Bool.and_eq_true, decide_eq_true_eq] at hc
        obtain ⟨ho, hb⟩ := hc
        have hal : aluOf op = some ins := by
          split at ha
          · cases ha
          · exact ha
        simp only [neval, bind_ok_iff, Res.ok.injEq, Prod.mk.injEq] at h
        obtain ⟨⟨a, σ1⟩, h1, w, h2, rfl, rfl⟩ := h
        obtain ⟨ht, hnr, hwr⟩ := hp.wf
        obtain ⟨hx, hsr, _, hsep⟩ := hp.stat
        have hsz : t.size = E.size x := by rw [ht, E.size_eq]
        have h8 := E.size_le x
        have hwt : t.wf = true := by rw [ht]; exact ity_wf _
        have hcm := commonTy_ok t r.ty hwt (wf_ty _ hwr)
        have hle : t.size ≤ (commonTy t r.ty).size := by
          have key : ∀ a ∈ allTys, ∀ b ∈ allTys, a.size ≤ (commonTy a b).size := by decide +kernel
          exact key t (mem_allTys t hwt) r.ty (mem_allTys r.ty (wf_ty _ hwr))
        have h8c := (size_le (commonTy t r.ty)).1
        have hcb := cty_ne_bool _ hcm.2.2
        have hwid : (cty (commonTy t r.ty)).width = 8 * (commonTy t r.ty).size := width_size _ hcm.2.2
        -- the right operand
        have hax : InRange (cty t) (σ x) := by rw [ht, cty_ity]; exact hp.sok x
        have hnull : Impl E.Γ t (σ x) (.null t) t (fun σ' => .ok (σ x, σ')) := ⟨⟨hwt, rfl⟩, rfl, fun _ _ => Or.inr rfl⟩
        have hri : Impl E.Γ t (σ x) r r.ty (neval (σ x) r) := ⟨wf_nt E.Γ nt t r hnr hwr, rfl, fun _ _ => Or.inr rfl⟩
        have hu := (usualConv_impl hs opt hax hnull hri).2
        have hrhs : neval (σ x) (usualConv hs opt (.null t) r).2 σ = .ok (conv (cty (commonTy t r.ty)) a, σ1) := by
          refine (hu.ref σ hp.sok).ok ?_
          simp only [convRes]
          rw [neval_acc (σ x) acc r σ hnr, h1]
          simp only [ok_bind]
        have hnrhs : NoNull (usualConv hs opt (.null t) r).2 := by
          rw [usual_eq]; exact noNull_newCast hs opt _ _ (noNull_intPromo hs opt _ hnr)
        have hprhs : Pre E opt t (σ x) (usualConv hs opt (.null t) r).2 σ s :=
          ⟨hu.wf, hax, (usual_stat hs opt E.dom (.null t) r trivial hsr).2, hp.sok, hp.bp, hp.rel, Or.inl hnrhs⟩
        have hsame : σ1 x = σ x := neval_writes r σ a σ1 h1 x (hsep ho)
        -- the operation at the size of the variable
        have hop : ∀ p q, Low t.size (σ x) p → Low t.size (conv (cty (commonTy t r.ty)) a) q → Low t.size (conv (cty t) w) (aluOp ins p q) := by
          intro p q hp' hq
          have h3 : arith (cty (commonTy t r.ty)) op (conv (cty (commonTy t r.ty)) (σ x)) (conv (cty (commonTy t r.ty)) a) = .ok w := by
            simp only [nbinop, binop] at h2
            rw [hcm.2.1]; exact h2
          exact (alu_low op ins (commonTy t r.ty) t.size _ _ w p q hcm.2.2 hle hal h3
            (hp'.conv _ hcb (by omega)) hq).conv _ (fun e => hb ((cty_bool t).1 e)) (by rw [cty_width t hb]; exact Nat.le_refl _)
        cases hv : evalNode hs (usualConv hs opt (.null t) r).2 with
        | ok u =>
          dsimp only
          obtain ⟨rfl, rfl⟩ := const_val hs hax hu.wf hp.sok hv hrhs
          obtain ⟨s2, x2, m2, r2⟩ := immTmpl_write (E := E) (fun o => .alu ins t.size o (.mem (E.loc x))) (limitImm (BitVec.ofInt 64 (conv (cty (commonTy t r.ty)) a)) t.size) s
            (wr s.m (E.addr x) t.size (aluOp ins (X86.get E.sym s t.size (.mem (E.loc x))) (zx t.size (limitImm (BitVec.ofInt 64 (conv (cty (commonTy t r.ty)) a)) t.size)))) fun s1 o hm hr ho => by
              have hb1 := (hr .bp (by simp)).trans hp.bp
              refine ⟨_, exec_alu_mem _ _ _ _ _, ?_, fun r _ => rfl⟩
              simp only
              rw [ho _ (by omega)]
              simp only [X86.get]
              rw [ea_loc hok hx s1 hb1, ea_loc hok hx s hp.bp, hm]
          have m2' := m2
          rw [hsz] at m2'
          refine does_write hok x _ _ _ s s2 hx hp.rel x2 m2' r2 ?_ c
          rw [← hsz]
          exact hop _ _ (low_var hok hx hp.bp hp.rel t.size (by omega) ⟨0, by omega⟩) (limitImm_low _ _ (by omega)).zx
        | _ =>
          rw [hv] at hK
          dsimp only at hK ⊢
          have hwr2 := (usual_weight hs opt (.null t) r hwt (wf_ty _ hwr)).2
          refine does_seq _ _ c s _ _ (hE _ (by simp only [weight]; omega) t (σ x) σ s _ σ1 c hprhs hrhs (seq_st_le hK).1) fun s1 e1 q1 => ?_
          have hbp1 := e1.bp.trans hp.bp
          refine does_write hok x _ (aluOp ins (X86.get E.sym s1 t.size (.mem (E.loc x))) (X86.get E.sym s1 t.size (.reg .ax))) _ s1
            { s1 with m := wr s1.m (ea E.sym s1 (E.loc x)) t.size (aluOp ins (X86.get E.sym s1 t.size (.mem (E.loc x))) (X86.get E.sym s1 t.size (.reg .ax))), f := none } hx q1.1 rfl ?_ (fun r hr => rfl) ?_ _
          · simp only
            rw [ea_loc hok hx s1 hbp1, hsz]
          · rw [← hsz]
            refine hop _ _ ?_ ?_
            · exact low_var hok hx hbp1 q1.1 t.size (by omega) (by rw [hsame]; exact ⟨0, by omega⟩)
            · have := q1.2.1.low
              rw [hu.ty] at this
              exact (this.mono hle h8c).zx
      · rename_i hc
        rw [if_neg hc]
        exact plain hK

/-- An expression for its effects only. -/
theorem voidCode_ok (hok : E.Ok) (hs : HostShift) (recE recV : Node → G) (n : Node)
    (hE : ∀ m, weight m ≤ weight n → ExprOk E P opt (recE m) m) (hV : ∀ m, weight m < weight n → VoidOk E P opt (recV m) m) :
    VoidOk E P opt (voidCode hs opt E.loc recE recV n) n := by
  have plain : VoidOk E P opt (recE n) n := fun nt acc σ s v σ' c hp hnn h hK => (hE n (Nat.le_refl _) nt acc σ s v σ' c hp h hK).imp fun s' _ q => q.1
  have two : ∀ a b, weight a < weight n → weight b < weight n →
      (∀ nt, WfNode E.Γ nt n → WfNode E.Γ nt a ∧ WfNode E.Γ nt b) → (Stat E.dom opt n → Stat E.dom opt a ∧ Stat E.dom opt b) → (NoNull n → NoNull a ∧ NoNull b) →
      (∀ acc σ v σ', neval acc n σ = .ok (v, σ') → ∃ va σ1 vb, neval acc a σ = .ok (va, σ1) ∧ neval acc b σ1 = .ok (vb, σ')) →
      VoidOk E P opt (recV a ;; recV b) n := by
    intro a b wa wb hwf hst hn hev nt acc σ s v σ' c hp hnn h hK
    obtain ⟨va, σ1, vb, h1, h2⟩ := hev acc σ v σ' h
    have hpa : Pre E opt nt acc a σ s := hp.left (hwf nt hp.wf).1 (hst hp.stat).1 fun h => (hn h).1
    refine does_seq _ _ c s _ _ (hV a wa nt acc σ s va σ1 c hpa (hn hnn).1 h1 (seq_st_le hK).1) fun s1 e1 q1 => ?_
    exact hV b wb nt acc σ1 s1 vb σ' _ (hp.right (hwf nt hp.wf).2 (hst hp.stat).2 (hn hnn).2 (hpa.range h1).2 e1.bp q1) (hn hnn).2 h2 (seq_st_le hK).2
  have one : ∀ e, weight e < weight n → (∀ nt, WfNode E.Γ nt n → WfNode E.Γ nt e) → (Stat E.dom opt n → Stat E.dom opt e) → (NoNull n → NoNull e) →
      (∀ acc σ v σ', neval acc n σ = .ok (v, σ') → ∃ w, neval acc e σ = .ok (w, σ')) → VoidOk E P opt (recV e) n := by
    intro e we hwf hst hn hev nt acc σ s v σ' c hp hnn h hK
    obtain ⟨w, h1⟩ := hev acc σ v σ' h
    exact hV e we nt acc σ s w σ' c (hp.left (hwf nt hp.wf) (hst hp.stat) hn) (hn hnn) h1 hK
  cases n with
  | num t v =>
    intro nt acc σ s v σ' c hp hnn h hK
    simp only [neval, Res.ok.injEq, Prod.mk.injEq] at h
    obtain ⟨_, rfl⟩ := h
    exact does_nil s _ hp.rel c
  | null t => exact fun nt acc σ s v σ' c hp hnn h hK => hnn.elim
  | var t x =>
    intro nt acc σ s v σ' c hp hnn h hK
    simp only [neval, Res.ok.injEq, Prod.mk.injEq] at h
    obtain ⟨_, rfl⟩ := h
    exact does_nil s _ hp.rel c
  | cast t e =>
    refine one e (by simp only [weight]; split <;> omega) (fun nt h => h.2) (fun h => h) (fun h => h) fun acc σ v σ' h => ?_
    simp only [neval, bind_ok_iff, Res.ok.injEq, Prod.mk.injEq] at h
    obtain ⟨⟨w, σ1⟩, h1, _, rfl⟩ := h
    exact ⟨w, h1⟩
  | un op t e =>
    refine one e (by simp only [weight]; omega) (fun nt h => h.2.2) (fun h => h.1) (fun h => h) fun acc σ v σ' h => ?_
    simp only [neval, bind_ok_iff, Res.ok.injEq, Prod.mk.injEq] at h
    obtain ⟨⟨w, σ1⟩, h1, _, rfl⟩ := h
    exact ⟨w, h1⟩
  | not e =>
    refine one e (by simp only [weight]; omega) (fun nt h => h.2) (fun h => h.1) (fun h => h) fun acc σ v σ' h => ?_
    simp only [neval, bind_ok_iff, Res.ok.injEq, Prod.mk.injEq] at h
    obtain ⟨⟨w, σ1⟩, h1, _, rfl⟩ := h
    exact ⟨w, h1⟩
  | bin k t a b =>
    refine two a b (by simp only [weight]; omega) (by simp only [weight]; omega) (fun nt h => h.2.2.2) (fun h => ⟨h.1, h.2.1⟩) (fun h => h) fun acc σ v σ' h => ?_
    simp only [neval, bind_ok_iff, Res.ok.injEq, Prod.mk.injEq] at h
    obtain ⟨⟨va, σ1⟩, h1, ⟨vb, σ2⟩, h2, r, _, _, rfl⟩ := h
    exact ⟨va, σ1, vb, h1, h2⟩
  | shift k t a b =>
    refine two a b (by simp only [weight]; omega) (by simp only [weight]; omega) (fun nt h => h.2.2) (fun h => ⟨h.1, h.2.1⟩) (fun h => h) fun acc σ v σ' h => ?_
    simp only [neval, bind_ok_iff, Res.ok.injEq, Prod.mk.injEq] at h
    obtain ⟨⟨va, σ1⟩, h1, ⟨vb, σ2⟩, h2, r, _, _, rfl⟩ := h
    exact ⟨va, σ1, vb, h1, h2⟩
  | cmp op a b =>
    refine two a b (by simp only [weight]; omega) (by simp only [weight]; omega) (fun nt h => h.2.2) (fun h => ⟨h.1, h.2.1⟩) (fun h => h) fun acc σ v σ' h => ?_
    simp only [neval, bind_ok_iff, Res.ok.injEq, Prod.mk.injEq] at h
    obtain ⟨⟨va, σ1⟩, h1, ⟨vb, σ2⟩, h2, _, rfl⟩ := h
    exact ⟨va, σ1, vb, h1, h2⟩
  | comma a b =>
    refine two a b (by simp only [weight]; omega) (by simp only [weight]; omega) (fun nt h => h) (fun h => ⟨h.1, h.2.1⟩) (fun h => h) fun acc σ v σ' h => ?_
    simp only [neval, bind_ok_iff] at h
    obtain ⟨⟨va, σ1⟩, h1, h2⟩ := h
    exact ⟨va, σ1, v, h1, h2⟩
  | assign t x r => exact voidAssign_ok hok hs recE t x r (hE _ (Nat.le_refl _))
  | arithAssign k t x r => exact voidArith_ok hok hs recE k t x r hE
  | postIncDec t x r =>
    have := voidArith_ok (E := E) (P := P) (opt := opt) hok hs recE (.ar .add) t x r fun m hm => hE m (by simp only [weight] at hm ⊢; omega)
    intro nt acc σ s v σ' c hp hnn h hK
    simp only [neval, bind_ok_iff, Res.ok.injEq, Prod.mk.injEq] at h
    obtain ⟨⟨a, σ1⟩, h1, w, h2, rfl, rfl⟩ := h
    exact this nt acc σ s (conv (cty t) w) _ c ⟨hp.wf, hp.accr, hp.stat, hp.sok, hp.bp, hp.rel, hp.null⟩ hnn
      (by simp only [neval, h1, ok_bind, h2]) hK
  | logand a b => exact plain
  | logor a b => exact plain
  | cond t c a b => exact plain

/-- What the code of a tree does, by mode. -/
def ModeOk (E : Env) (P : List Line) (opt : Bool) (g : G) : Mode → Node → Prop
  | .expr, n => ExprOk E P opt g n
  | .void, n => VoidOk E P opt g n
  | .cond j l, n => CondOk E P opt g j l n

/-- The generator, for every tree. -/
theorem gen_ok (hok : E.Ok) (hu : UniqueLabels P) (hs : HostShift) : ∀ (f : Nat) (m : Mode) (n : Node), fuel m n ≤ f → (∃ nt, WfNode E.Γ nt n) →
    ModeOk E P opt (gen hs opt E.loc E.stk f m n) m n := by
  intro f
  induction f with
  | zero =>
    intro m n h
    have := weight_pos n
    unfold fuel at h
    omega
  | succ f ih =>
    intro m n h hwf
    -- the recursive calls are on trees that are well-formed whenever they are run
    have hE : ∀ k, 2 * weight k ≤ f → ExprOk E P opt (gen hs opt E.loc E.stk f .expr k) k := fun k hk nt acc σ s v σ' c hp =>
      ih .expr k hk ⟨nt, hp.wf⟩ nt acc σ s v σ' c hp
    have hV : ∀ k, 2 * weight k + 1 ≤ f → VoidOk E P opt (gen hs opt E.loc E.stk f .void k) k := fun k hk nt acc σ s v σ' c hp =>
      ih .void k hk ⟨nt, hp.wf⟩ nt acc σ s v σ' c hp
    have hC : ∀ k j l, 2 * weight k + 1 ≤ f → CondOk E P opt (gen hs opt E.loc E.stk f (.cond j l) k) j l k := fun k j l hk nt acc σ s v σ' c hp =>
      ih (.cond j l) k hk ⟨nt, hp.wf⟩ nt acc σ s v σ' c hp
    cases m with
    | expr =>
      have hf : 2 * weight n ≤ f + 1 := h
      show ExprOk E P opt (gen hs opt E.loc E.stk (f + 1) .expr n) n
      simp only [gen]
      split
      · rename_i g hg
        split at hg
        · rename_i ho
          exact exprOpt_ok hok hu hs _ (fun j l => gen hs opt E.loc E.stk f (.cond j l)) n g ho hg (fun k hk => hE k (by omega)) (fun k j l hk => hC k j l (by omega))
        · cases hg
      · exact exprPlain_ok hok hu hs _ _ (fun j l => gen hs opt E.loc E.stk f (.cond j l)) n (fun k hk => hE k (by omega)) (fun k hk => hV k (by omega)) (fun k j l hk => hC k j l (by omega)) hwf
    | void =>
      have hf : 2 * weight n + 1 ≤ f + 1 := h
      exact voidCode_ok hok hs _ _ n (fun k hk => hE k (by omega)) (fun k hk => hV k (by omega))
    | cond j l =>
      have hf : 2 * weight n + 1 ≤ f + 1 := h
      exact condCode_ok hok hu hs _ (fun j l => gen hs opt E.loc E.stk f (.cond j l)) j l n (fun k hk => hE k (by omega)) (fun k j l hk => hC k j l (by omega))

end
end Slimcc
