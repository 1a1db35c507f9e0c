import Verif.Lemmas.AddrSet
import Verif.Lemmas.CallStore
/-! An argument is assigned to its place in memory. -/
set_option autoImplicit false
namespace Slimcc
open Slimcc.Spec Slimcc.Spec.CTy Slimcc.Ty Slimcc.X86 Slimcc.Gen Slimcc.AGen

section
variable {E : Env} {P : List Line} {opt : Bool}

/-- The object holds the value. -/
def Stored (t : CTy) (v : Int) (A : Word) (m : Mem) : Prop := rd m A t.bytes = zx t.bytes (BitVec.ofInt 64 v)

theorem bytes_le (t : CTy) : t.bytes ≤ 8 := by rw [bytes_size]; exact (size_le _).1

/-- A store to the object. -/
theorem store_does {t : CTy} {A : Word} (hA : E.Apart A t.bytes) {v : Int} {τ : Store} (l : List Ins) {s s' : St} {w : Word} (hrel : Rel E τ s.m)
    (hx : execs E.sym l s = some s') (hm : s'.m = wr s.m A t.bytes w) (hr : ∀ r, ¬ Scratch r → s'.r r = s.r r) (hw : Low t.bytes v w) (c : Nat) :
    Does (withObj E t A) P (inss l c).1 s fun s' => Rel E τ s'.m ∧ Stored t v A s'.m := by
  refine does_inss (E := withObj E t A) l s s' _ hx ⟨hr _ nbp, hr _ nsp, fun i _ _ => hr _ (ntmp i), fun b hb _ => ?_⟩ ⟨?_, ?_⟩ c
  · rw [hm]
    apply wr_other
    have := hb 0 trivial
    rwa [withObj_addr0] at this
  · rw [rel_iff]
    intro y hy
    rw [hm, rd_wr_disj _ _ _ _ _ _ (E.size_le y) (fun c hc => (hA c hc.1).1 y hy hc.2)]
    exact (rel_iff E τ s.m).1 hrel y hy
  · unfold Stored
    rw [hm, rd_wr_same _ _ _ _ (bytes_le t), hw.zx_eq (bytes_le t)]

theorem assignTo_ok (hok : E.Ok) (hu : UniqueLabels P) (hs : HostShift) (e : Expr) (τ τ' : Store) (s : St) (v : Int) (c : Nat) (dst : MemOp) (A : Word)
    (h : Ready E opt e τ s) (hv : ceval E.Γ e τ = .ok (v, τ')) (hd : ∀ s1 : St, s1.r .bp = s.r .bp → s1.r .sp = s.r .sp → ea E.sym s1 dst = A)
    (hA : E.Apart A (e.ty E.Γ).bytes) (hK : (assignTo hs opt E.loc E.stk dst (build hs opt E.Γ e) c).1.st ≤ E.K) :
    Does (withObj E (e.ty E.Γ) A) P (assignTo hs opt E.loc E.stk dst (build hs opt E.Γ e) c).1 s fun s' =>
      Rel E τ' s'.m ∧ Stored (e.ty E.Γ) v A s'.m := by
  have hfit := ceval_fits hs opt h.wf h.sok hv
  have hty := (h.impl hs).ty
  generalize ht : e.ty E.Γ = t at *
  have hv' : ceval E.Γ (.cast t e) τ = .ok (v, τ') := by rw [ceval_castTo hv, conv_id _ _ hfit.1]
  have h' : Ready E opt (.cast t e) τ s := ⟨h.wf, h.vars, h.seq, h.sok, h.bp, h.rel⟩
  have hn : newCast hs opt (build hs opt E.Γ e) (build hs opt E.Γ e).ty = build hs opt E.Γ (.cast t e) := by rw [hty]; rfl
  have hsz : (build hs opt E.Γ e).ty.size = t.bytes := by rw [hty, bytes_size]
  have hnev := refines_ok ((h'.impl hs).ref τ h'.sok) hv'
  have hp := h'.pre hs
  have hnt : (build hs opt E.Γ (.cast t e)).ty = ity t := (h'.impl hs).ty
  have h8 := bytes_le t
  unfold assignTo at hK ⊢
  rw [hn, hsz, hty] at hK ⊢
  have gen : ∀ (s1 : St) (c1 : Nat), Ready E opt (.cast t e) τ s1 → (genExpr hs opt E.loc E.stk (build hs opt E.Γ (.cast t e)) c1).1.st ≤ E.K →
      Does E P (genExpr hs opt E.loc E.stk (build hs opt E.Γ (.cast t e)) c1).1 s1 fun s' => Rel E τ' s'.m ∧ Reps (ity t) v (s'.r .ax) :=
    fun s1 c1 r1 k1 => compileExpr_ok hok hu hs (.cast t e) τ τ' s1 v c1 r1 hv' k1
  cases hev : evalNode hs (build hs opt E.Γ (.cast t e)) with
  | ok u =>
    dsimp only
    obtain ⟨rfl, rfl⟩ := const_val hs hp.accr hp.wf hp.sok hev hnev
    obtain ⟨s2, x2, m2, r2⟩ := immTmpl_write (E := E) (fun o => .mov t.bytes o (.mem dst)) (limitImm (BitVec.ofInt 64 v) t.bytes) s
      (wr s.m A t.bytes (zx t.bytes (limitImm (BitVec.ofInt 64 v) t.bytes))) fun s1 o hm hr ho => by
        refine ⟨_, exec_store _ _ _ _, ?_, fun r _ => rfl⟩
        simp only
        rw [hd s1 (hr .bp (by simp)) (hr .sp (by simp)), ho _ h8, hm]
    exact store_does hA _ h.rel x2 m2 r2 (limitImm_low v _ h8).zx c
  | _ =>
    rw [hev] at hK
    dsimp only at hK ⊢
    cases hc : copyFrom (ity t) (build hs opt E.Γ (.cast t e)) with
    | some y =>
      dsimp only
      obtain ⟨rfl, hin, hle, hdv⟩ := copyFrom_val hc hnt hp.wf hnev
      have hdy := stat_dom _ y hp.stat hin
      rw [← bytes_size] at hle hdv
      refine store_does hA _ h.rel (s' := { s.setR .dx (put t.bytes (s.r .dx) (X86.get E.sym s t.bytes (.mem (E.loc y)))) with
          m := wr s.m (ea E.sym (s.setR .dx (put t.bytes (s.r .dx) (X86.get E.sym s t.bytes (.mem (E.loc y))))) dst) t.bytes
            (X86.get E.sym (s.setR .dx (put t.bytes (s.r .dx) (X86.get E.sym s t.bytes (.mem (E.loc y))))) t.bytes (.reg .dx)) })
        (w := X86.get E.sym (s.setR .dx (put t.bytes (s.r .dx) (X86.get E.sym s t.bytes (.mem (E.loc y))))) t.bytes (.reg .dx))
        rfl ?_ (fun r hr => setR_other _ _ _ _ fun e => hr (e ▸ scratch_dx)) ?_ c
      · simp only
        rw [hd (s.setR .dx _) (setR_other _ _ _ _ (by simp)) (setR_other _ _ _ _ (by simp))]
      · simp only [X86.get, setR_same]
        have hlow := low_var hok hdy h.bp h.rel t.bytes hle hdv
        exact (hlow.same (put_same t.bytes _ _)).zx
    | none =>
      rw [hc] at hK
      dsimp only at hK ⊢
      by_cases ho : opt = true
      · rw [if_pos ho] at hK ⊢
        refine does_seq _ _ c s _ _ (withObj_does t A (gen s c h' (seq_st_le hK).1)) fun s1 e1 q1 => ?_
        refine store_does hA _ q1.1 (w := zx t.bytes (s1.r .ax)) (s' := { s1 with m := wr s1.m (ea E.sym s1 dst) t.bytes (zx t.bytes (s1.r .ax)) }) rfl ?_ (fun _ _ => rfl) ?_ _
        · simp only
          rw [hd s1 e1.bp e1.sp]
        · have := q1.2.low
          rw [← bytes_size] at this
          exact this.zx
      · rw [if_neg ho] at hK ⊢
        have hK' := seq_st_le hK
        refine does_seq _ _ c s (fun s1 => s1.m = s.m ∧ s1.r .bp = s.r .bp ∧ s1.r .sp = s.r .sp ∧ s1.r .ax = A) _ ?_ fun s1 _ q1 => ?_
        · refine does_inss (E := withObj E t A) _ s (s.setR .ax A) _ ?_ ?_ ⟨rfl, setR_other _ _ _ _ (by simp), setR_other _ _ _ _ (by simp), setR_same _ _ _⟩ _
          · show some (s.setR .ax (ea E.sym s dst)) = _
            rw [hd s rfl rfl]
          · exact ⟨setR_other _ _ _ _ (by simp), setR_other _ _ _ _ (by simp), fun i _ _ => setR_other _ _ _ _ (by simp), fun _ _ _ => rfl⟩
        · have hbp1 : s1.r .bp = E.bp := q1.2.1.trans h.bp
          have here : Here E ⟨fun _ => 0, s.m⟩ τ s1 := ⟨h.sok, hbp1, by rw [q1.1]; exact h.rel, fun b _ => by rw [q1.1]⟩
          refine does_tmp_mem (withObj_ok hok t A hA) .ax true _ _ _ s1 (fun s2 => Rel E τ' s2.m ∧ Reps (ity t) v (s2.r .ax)) _ hbp1 hK'.2 (fun s2 h1 _ _ h4 h5 => ?_)
            (fun s2 p hp h1 h2 h3 => ?_)
          · have k := withObj_keep t A h4 h5 here h1
            exact withObj_does t A (gen s2 _ ⟨h.wf, h.vars, h.seq, h.sok, h1, k.rel⟩ (tmp_st_le hK'.2))
          · obtain ⟨i, hi, hlt⟩ := popReg_lt (pushIns E.stk true .ax) (genExpr hs opt E.loc E.stk (build hs opt E.Γ (.cast t e)))
              (fun l => popIn E.stk true l ++ [.mov t.bytes (.reg .ax) (.mem (.ind (popReg l)))]) (inss [.lea dst .ax] c).2
            rw [← hp] at hi
            obtain ⟨s3, x3, r3, m3, o3⟩ := popIn_run (E := withObj E t A) p _ _ s2 h1 h2
            rw [hi] at r3 o3
            rw [show rsz true = 8 from rfl, zx8, q1.2.2.2] at r3
            have hax : s3.r .ax = s2.r .ax := o3 .ax (by simp)
            have ea3 : ea E.sym s3 (.ind (.tmp i)) = A := r3
            have x3 : execs E.sym (popIn E.stk true p) s2 = some s3 := x3
            have hxx : execs E.sym (popIn E.stk true p ++ [.mov t.bytes (.reg .ax) (.mem (.ind (popReg p)))]) s2 =
                some { s3 with m := wr s3.m A t.bytes (zx t.bytes (s3.r .ax)) } := by
              rw [execs_append, x3, hi, ← ea3]; rfl
            refine ⟨_, hxx, ⟨o3 .bp (by simp), o3 .sp (by simp), fun j hj _ => ?_, fun b hb _ => ?_⟩, ?_, ?_⟩
            · have hj : (tmp (pushIns E.stk true .ax) (genExpr hs opt E.loc E.stk (build hs opt E.Γ (.cast t e)))
                (fun l => popIn E.stk true l ++ [.mov t.bytes (.reg .ax) (.mem (.ind (popReg l)))]) (inss [.lea dst .ax] c).2).1.gp ≤ j := hj
              exact o3 _ (by intro e; injection e; omega)
            · show wr s3.m A t.bytes _ b = s2.m b
              have hb := hb 0 trivial
              rw [withObj_addr0] at hb
              have hb : ¬ InBlk A t.bytes b := hb
              rw [wr_other _ _ _ _ _ hb, m3]
            · show Rel E τ' (wr s3.m A t.bytes _)
              rw [rel_iff]
              intro y hy
              rw [rd_wr_disj _ _ _ _ _ _ (E.size_le y) (fun c hc => (hA c hc.1).1 y hy hc.2), m3]
              exact (rel_iff E τ' s2.m).1 h3.1 y hy
            · show rd (wr s3.m A t.bytes _) A t.bytes = _
              have := h3.2.low
              rw [← bytes_size] at this
              rw [rd_wr_same _ _ _ _ h8, zx_zx, hax, this.zx_eq h8]

end
end Slimcc
