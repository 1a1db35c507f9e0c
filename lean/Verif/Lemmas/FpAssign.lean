import Verif.Lemmas.FpExpr4
import Verif.Lemmas.MemCopy
import Verif.Lemmas.FpFold
import Verif.Model.FpAssign
import Verif.Spec.FpAssign
/-! Stores of values in place. -/
set_option autoImplicit false
namespace Slimcc.FP
open Slimcc.Spec Slimcc.Spec.CTy Slimcc.Spec.FP Slimcc.X86 Slimcc.Ty Slimcc.Gen

variable {E : FEnv} {σ : Nat → Val}

/-- What a store does. -/
structure Stored (t : VTy) (v : Val) (a : Word) (n : Nat) (s s' : FS) : Prop where
  regs : s'.g.r = s.g.r
  xmm : s'.xmm = s.xmm
  cw : s'.cw = s.cw
  place : InPlace t v n s'
  depth : s'.st.length ≤ max n 1
  at_ : At t v a s'.g.m
  mem : ∀ b, ¬ InBlk a t.size b → s'.g.m b = s.g.m b

theorem self_off (a : Word) (i : Nat) (hi : i < 8) : (a + BitVec.ofNat 64 i - a).toNat = i := by
  have : a + BitVec.ofNat 64 i - a = BitVec.ofNat 64 i := by
    generalize BitVec.ofNat 64 i = j
    bv_omega
  rw [this, BitVec.toNat_ofNat]; exact Nat.mod_eq_of_lt (by omega)

theorem store3_run (t : VTy) (v : Val) (m : MemOp) (a : Word) (n : Nat) (s : FS) (hv : HasTy t v) (hc : s.cw = 0x37f#16) (hm : ea E.sym s.g m = a) (hx : InPlace t v n s) :
    Runs E.sym (store3 t m) none s fun s' => Stored t v a n s s' := by
  cases t with
  | int t =>
    cases v with
    | f x => exact hv.elim
    | i z =>
      have h8 : t.bytes ≤ 8 := by cases t <;> decide
      refine runs_imp (runs_gps [.mov t.bytes (.reg .ax) (.mem m)] s { s.g with m := wr s.g.m a t.bytes (zx t.bytes (s.g.r .ax)) } (by rw [← hm]; rfl)) fun s' h => ?_
      obtain ⟨h1, h2, h3, h4⟩ := h
      have hm' : s'.g.m = wr s.g.m a t.bytes (zx t.bytes (s.g.r .ax)) := by rw [h1]
      refine ⟨by rw [h1], h2, h4, ⟨by rw [h1]; exact hx.1, by rw [h3]; exact hx.2⟩, ?_, ⟨hv, fun i hi => ?_⟩, fun b hb => ?_⟩
      · rw [h3]; have : s.st.length ≤ n := hx.2; omega
      · rw [hm']
        unfold wr
        rw [self_off a i (by omega), if_pos hi]
        have hl : Low t.bytes z (s.g.r .ax) := by have := ((reps_inReg t z _).2 hx.1).low; rwa [← bytes_size] at this
        rw [hl.zx_eq h8, MemL.zx_byte t.bytes i _ h8 hi]
      · rw [hm']; exact wr_other _ _ _ _ _ hb
  | flo f =>
    cases v with
    | i z => exact hv.elim
    | f x =>
      cases f with
      | float =>
        have hd := (inPlace_fty false x n s).1 hx
        refine runs_i rfl (runs_nil ⟨rfl, rfl, rfl, hx, ?_, ?_, fun b hb => ?_⟩)
        · have := hd.2; show s.st.length ≤ _; omega
        · show decode f32 32 (rd (wr s.g.m (ea E.sym s.g m) 4 (s.xmm 0)) a 4).toNat = x
          rw [hm, rd_wr_same _ _ _ _ (by omega)]
          have := hd.1; unfold datum at this; rwa [if_neg (by decide)] at this
        · show wr s.g.m (ea E.sym s.g m) 4 (s.xmm 0) b = _
          rw [hm]; exact wr_other _ _ _ _ _ hb
      | double =>
        have hd := (inPlace_fty true x n s).1 hx
        refine runs_i rfl (runs_nil ⟨rfl, rfl, rfl, hx, ?_, ?_, fun b hb => ?_⟩)
        · have := hd.2; show s.st.length ≤ _; omega
        · show decode f64 64 (rd (wr s.g.m (ea E.sym s.g m) 8 (s.xmm 0)) a 8).toNat = x
          rw [hm, rd_wr_same _ _ _ _ (by omega)]
          have := hd.1; unfold datum at this; rw [if_pos rfl] at this
          rw [← this]; congr 2
        · show wr s.g.m (ea E.sym s.g m) 8 (s.xmm 0) b = _
          rw [hm]; exact wr_other _ _ _ _ _ hb
      | ldouble =>
        obtain ⟨st, ⟨hx1, hx2⟩, hn⟩ := hx
        obtain ⟨e1, e2, e3⟩ := decode_encode80 hx1
        have hdis : Disj a 8 (a + 8) 2 := by
          intro c; unfold InBlk; bv_omega
        have hat : decode80 (rd (wr (wr s.g.m a 8 (BitVec.ofNat 64 (encode80 x).1)) (a + 8) 2 (BitVec.ofNat 64 (encode80 x).2)) a 8).toNat
            (rd (wr (wr s.g.m a 8 (BitVec.ofNat 64 (encode80 x).1)) (a + 8) 2 (BitVec.ofNat 64 (encode80 x).2)) (a + 8) 2).toNat = x := by
          rw [rd_wr_same _ _ _ _ (by omega), rd_wr_disj _ _ _ _ _ _ (by omega) (fun c hc => hdis c ⟨hc.2, hc.1⟩), rd_wr_same _ _ _ _ (by omega)]
          have z1 : (zx 8 (BitVec.ofNat 64 (encode80 x).1)).toNat = (encode80 x).1 := by
            unfold zx; simp only [BitVec.toNat_setWidth, BitVec.toNat_ofNat]; omega
          have z2 : (zx 2 (BitVec.ofNat 64 (encode80 x).2)).toNat = (encode80 x).2 := by
            unfold zx; simp only [BitVec.toNat_setWidth, BitVec.toNat_ofNat]; omega
          rw [z1, z2]; exact e3
        have h1 : fexec E.sym (.fstpt m) s = some { s with g := { s.g with m := wr (wr s.g.m a 8 (BitVec.ofNat 64 (encode80 x).1)) (a + 8) 2 (BitVec.ofNat 64 (encode80 x).2) }, st := st } := by
          simp only [fexec, hx2, hm]
        refine runs_i h1 (runs_i rfl ?_)
        refine runs_i (exec_fldt E.sym m _ x a (a + 8) ?_ rfl (Nat.zero_lt_succ _) hat) (runs_nil ?_)
        · rw [← hm]; cases m <;> rfl
        · refine ⟨rfl, rfl, hc.symm, ⟨[], ⟨hx1, rfl⟩, Nat.zero_le _⟩, ?_, ⟨hx1, hat⟩, fun b hb => ?_⟩
          · show 1 ≤ _; omega
          · show wr _ _ _ _ b = _
            have h2 : ¬ InBlk (a + 8) 2 b := fun hc => hb (blk_off a b 8 16 2 (by omega) (by omega) hc)
            have h3 : ¬ InBlk a 8 b := fun hc => hb (by unfold InBlk at *; show _ < 16; omega)
            rw [wr_other _ _ _ _ _ h2, wr_other _ _ _ _ _ h3]

theorem addr_same {x y : Nat} (h : E.Same x y) : E.addr y = E.addr x := by
  unfold FEnv.addr; rw [h.1]

theorem set_within (hok : E.Ok) {x n k f : Nat} {v : Val} {s s1 s2 : FS} (hx : E.Alone x) (hk : k ≤ E.K) (hs : Within E σ n s) (hl : Leaves E k f s s1)
    (hst : Stored (E.Γ x) v (E.addr x) n s1 s2) : Within E (E.set σ x v) (max n 1) s2 ∧ LeavesBut E x k f s s2 := by
  have w1 := within_leaves (n' := s1.st.length) hok hk hs hl (Nat.le_refl _)
  refine ⟨⟨?_, ?_, hst.cw.trans w1.cw, hst.depth, fun y => ?_⟩, ?_, fun i => ?_, hst.cw.trans hl.cw, fun i hi => ?_, fun a h1 h2 h3 => ?_⟩
  · rw [hst.regs]; exact w1.bp
  · rw [hst.regs]; exact w1.sp
  · unfold FEnv.set
    by_cases hy : E.Same x y
    · rw [if_pos hy, addr_same hy, hy.2]; exact hst.at_
    · rw [if_neg hy]
      have hd := (hx y).resolve_left hy
      exact at_congr _ _ _ _ _ (fun b hb => hst.mem b fun hc => hd b ⟨hc, hb⟩) (w1.mem y)
  · rw [hst.regs]; exact hl.bp
  · rw [hst.regs]; exact hl.tmp i
  · rw [hst.xmm]; exact hl.xmm i hi
  · rw [hst.mem a h1]; exact hl.mem a h2 h3

/-! Statements that do not need the value. -/

/-- What the statements do that go through %rdx at most. -/
structure Moved (t : VTy) (v : Val) (a : Word) (s s' : FS) : Prop where
  regs : ∀ r, r ≠ .dx → s'.g.r r = s.g.r r
  xmm : s'.xmm = s.xmm
  st : s'.st = s.st
  cw : s'.cw = s.cw
  at_ : At t v a s'.g.m
  mem : ∀ b, ¬ InBlk a t.size b → s'.g.m b = s.g.m b

theorem immMov_run (sym : Nat → Word) (n : Nat) (m : MemOp) (a : Word) (v : Word) (s : St) (h : ∀ s1 : St, (∀ r, r ≠ .dx → s1.r r = s.r r) → ea sym s1 m = a) :
    ∃ s', execs sym (immTmpl (fun o => .mov n o (.mem m)) v) s = some s' ∧ (∀ r, r ≠ .dx → s'.r r = s.r r) ∧ s'.m = wr s.m a n (zx n v) := by
  have reg : ∀ z, z = 4 ∨ z = 8 → zx z v = v → ∃ s', execs sym [.mov z (.imm v) (.reg .dx), .mov n (.reg .dx) (.mem m)] s = some s' ∧
      (∀ r, r ≠ .dx → s'.r r = s.r r) ∧ s'.m = wr s.m a n (zx n v) := by
    intro z hz hv
    have e1 : exec sym (.mov z (.imm v) (.reg .dx)) s = some (s.setR .dx v) := by
      simp only [exec, put', X86.get, put_of_rop _ _ _ hz, zx_zx, hv]
    refine ⟨{ s.setR .dx v with m := wr s.m a n (zx n v) }, ?_, fun r hr => setR_other _ _ _ _ hr, rfl⟩
    rw [execs, e1, Option.bind_some]
    simp only [execs, Option.bind_some, exec, put', X86.get, setR_same, h (s.setR .dx v) fun r hr => setR_other _ _ _ _ hr]
    rfl
  unfold immTmpl
  split
  · refine ⟨{ s with m := wr s.m a n (zx n v) }, ?_, fun _ _ => rfl, rfl⟩
    simp only [execs, Option.bind_some, exec, put', X86.get, h s fun _ _ => rfl]
  · split
    · rename_i e; exact reg 4 (Or.inl rfl) e.symm
    · exact reg 8 (Or.inr rfl) (zx8 v)

theorem const_run (t : CTy) (z : Int) (m : MemOp) (a : Word) (s : FS) (hv : InRange t z) (hm : ∀ s1 : St, (∀ r, r ≠ .dx → s1.r r = s.g.r r) → ea E.sym s1 m = a) :
    Runs E.sym (gps (immTmpl (fun o => .mov t.bytes o (.mem m)) (limitImm (BitVec.ofInt 64 z) t.bytes))) none s fun s' => Moved (.int t) (.i z) a s s' := by
  have h8 : t.bytes ≤ 8 := by cases t <;> decide
  obtain ⟨g, e1, e2, e3⟩ := immMov_run E.sym t.bytes m a (limitImm (BitVec.ofInt 64 z) t.bytes) s.g hm
  refine runs_imp (runs_gps _ s g e1) fun s' h => ?_
  obtain ⟨h1, h2, h3, h4⟩ := h
  refine ⟨by rw [h1]; exact e2, h2, h3, h4, ⟨hv, fun i hi => ?_⟩, fun b hb => ?_⟩
  · rw [h1, e3]
    unfold wr
    rw [self_off a i (by omega), if_pos hi, (limitImm_low z t.bytes h8).zx_eq h8, MemL.zx_byte t.bytes i _ h8 hi]
  · rw [h1, e3]; exact wr_other _ _ _ _ _ hb

theorem copy_at (t : VTy) (v : Val) (a b : Word) (m m' : Mem) (hl : t ≠ .flo .ldouble) (h : ∀ i, i < t.size → m' (a + BitVec.ofNat 64 i) = m (b + BitVec.ofNat 64 i))
    (hr : rd m' a t.size = rd m b t.size) (hm : At t v b m) : At t v a m' := by
  cases t with
  | int t =>
    cases v with
    | i z => exact ⟨hm.1, fun i hi => (h i hi).trans (hm.2 i hi)⟩
    | f x => exact hm.elim
  | flo f =>
    cases v with
    | i z => cases f <;> exact hm.elim
    | f x =>
      cases f with
      | float => exact (congrArg (fun w : Word => decode f32 32 w.toNat) hr).trans hm
      | double => exact (congrArg (fun w : Word => decode f64 64 w.toNat) hr).trans hm
      | ldouble => exact absurd rfl hl

theorem copyVar_run (t : VTy) (v : Val) (ms md : MemOp) (a b : Word) (s : FS) (hl : t ≠ .flo .ldouble) (hs : ea E.sym s.g ms = b)
    (hm : ∀ s1 : St, (∀ r, r ≠ .dx → s1.r r = s.g.r r) → ea E.sym s1 md = a) (hv : At t v b s.g.m) :
    Runs E.sym (copyVar t.size ms md) none s fun s' => Moved t v a s s' := by
  have hz : t.size = 1 ∨ t.size = 2 ∨ t.size = 4 ∨ t.size = 8 := by
    cases t with
    | int t => cases t <;> decide
    | flo f => cases f <;> first | decide | exact absurd rfl hl
  have h8 : t.size ≤ 8 := by omega
  have e1 : execs E.sym [.mov t.size (.mem ms) (.reg .dx), .mov t.size (.reg .dx) (.mem md)] s.g =
      some { s.g.setR .dx (put t.size (s.g.r .dx) (rd s.g.m b t.size)) with m := wr s.g.m a t.size (rd s.g.m b t.size) } := by
    simp only [execs, exec, put', X86.get, Option.bind_some, hs, setR_same]
    rw [hm _ fun r hr => setR_other _ _ _ _ hr, MemL.zx_put _ hz, zx_rd _ _ _ h8]
    rfl
  refine runs_imp (runs_gps _ s _ e1) fun s' h => ?_
  obtain ⟨h1, h2, h3, h4⟩ := h
  have hm' : s'.g.m = wr s.g.m a t.size (rd s.g.m b t.size) := by rw [h1]
  refine ⟨fun r hr => by rw [h1]; exact setR_other _ _ _ _ hr, h2, h3, h4, copy_at t v a b s.g.m _ hl (fun i hi => ?_) ?_ hv, fun c hc => ?_⟩
  · rw [hm']
    show wr _ _ _ _ _ = _
    unfold wr
    rw [self_off a i (by omega), if_pos hi]
    exact MemL.rd_byte _ _ _ _ h8 hi
  · rw [hm', rd_wr_same _ _ _ _ h8, zx_rd _ _ _ h8]
  · rw [hm']; exact wr_other _ _ _ _ _ hc

theorem moved_within {x n : Nat} {v : Val} {s s2 : FS} (hx : E.Alone x) (hs : Within E σ n s) (hst : Moved (E.Γ x) v (E.addr x) s s2) (k f : Nat) :
    Within E (E.set σ x v) (max n 1) s2 ∧ LeavesBut E x k f s s2 := by
  refine ⟨⟨?_, ?_, hst.cw.trans hs.cw, ?_, fun y => ?_⟩, hst.regs _ (by decide), fun i => hst.regs _ (by simp), hst.cw, fun i _ => by rw [hst.xmm], fun a h1 _ _ => hst.mem a h1⟩
  · rw [hst.regs _ (by decide)]; exact hs.bp
  · rw [hst.regs _ (by decide)]; exact hs.sp
  · rw [hst.st]; have := hs.st; omega
  · unfold FEnv.set
    by_cases hy : E.Same x y
    · rw [if_pos hy, addr_same hy, hy.2]; exact hst.at_
    · rw [if_neg hy]
      have hd := (hx y).resolve_left hy
      exact at_congr _ _ _ _ _ (fun b hb => hst.mem b fun hc => hd b ⟨hc, hb⟩) (hs.mem y)

end Slimcc.FP
