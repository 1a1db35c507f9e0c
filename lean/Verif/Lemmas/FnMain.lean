import Verif.Lemmas.FnStmt
import Verif.Lemmas.FnFresh
import Verif.Lemmas.FnAt
/-! A function from the call instruction to the line after it. -/
set_option autoImplicit false
namespace Slimcc
open Slimcc.Spec Slimcc.Spec.CTy Slimcc.Ty Slimcc.X86 Slimcc.Gen Slimcc.Props

section
variable {hs : HostShift} {opt : Bool} {P : Prog} {I : Image} {f : FnDef} {fr : Frame} {k : Nat} {S : Word} {lo hi : Nat}

theorem offset_reg (hR : FnRules P opt f) {x : Nat} {o : Int} {i : Nat} (hi : f.params[i]? = some x) (h6 : i < 6) (h : OffsetOf f fr x o) : o = fr.ofs x := by
  rcases h with ⟨-, rfl⟩ | ⟨j, h7, hj, rfl⟩
  · rfl
  · have hn := (List.nodup_append.1 hR.distinct).1
    have := (List.getElem?_inj (List.getElem?_eq_some_iff.1 hi).1 hn).1 (hi.trans hj.symm)
    omega

theorem offset_stk (hR : FnRules P opt f) {x : Nat} {o : Int} {i : Nat} (hi : f.params[i]? = some x) (h6 : 6 ≤ i) (h : OffsetOf f fr x o) : o = 8 * (i - 6) + 16 := by
  have hn := (List.nodup_append.1 hR.distinct)
  rcases h with ⟨h, rfl⟩ | ⟨j, h7, hj, rfl⟩
  · rcases List.mem_append.1 h with h | h
    · obtain ⟨j, hj⟩ := List.getElem?_of_mem h
      have hlt : j < 6 := by have := (List.getElem?_eq_some_iff.1 hj).1; rw [List.length_take] at this; omega
      rw [List.getElem?_take_of_lt hlt] at hj
      have := (List.getElem?_inj (List.getElem?_eq_some_iff.1 hi).1 hn.1).1 (hi.trans hj.symm)
      omega
    · exact absurd rfl (hn.2.2 x (List.mem_of_getElem? hi) x h)
  · have := (List.getElem?_inj (List.getElem?_eq_some_iff.1 hi).1 hn.1).1 (hi.trans hj.symm)
    subst this
    rfl

theorem argRegister_none {i : Nat} (h : 6 ≤ i) : argRegister i = none := by
  obtain ⟨j, rfl⟩ : ∃ j, i = j + 6 := ⟨i - 6, by omega⟩
  rfl

theorem argReg_sp {i : Nat} (h : i < 6) : argReg i ≠ .sp := by
  have : ∀ i, i < 6 → argReg i ≠ .sp := by decide
  exact this i h

theorem sub_nat {c : Nat} (h : c ≤ S.toNat) : (S - BitVec.ofNat 64 c).toNat = S.toNat - c := by
  have := S.isLt
  rw [BitVec.toNat_sub, BitVec.toNat_ofNat, Nat.mod_eq_of_lt (show c < 2 ^ 64 by omega)]
  omega

/-- The store at the beginning of the body. -/
theorem entry_store (A : ActOk hs opt P I f fr k S lo hi) {vs : List Int} {σ : Store} {need : Nat} {s s1 : St} {ra : Word} (hS : s.r .sp = S)
    (hl : vs.length = f.params.length) (C : Calling P I lo hi f vs σ need s)
    (hm : ∀ a, (∀ x ∈ own f, ¬ InBlk (S - 16#64 + BitVec.ofInt 64 (fr.ofs x)) (P.Γ x).bytes a) → s1.m a = wr (wr s.m (S - 8#64) 8 ra) (S - 16#64) 8 (s.r .bp) a)
    (hp : ∀ i x v, f.params[i]? = some x → i < 6 → InReg (P.Γ x) v (s.r (argReg i)) → Bytes s1.m (S - 16#64 + BitVec.ofInt 64 (fr.ofs x)) (P.Γ x).bytes v) :
    ∃ σ0, FnEnters P f vs σ σ0 ∧ Rel (actEnv P I f fr k S) σ0 s1.m := by
  have room := A.room
  have ins := A.inside
  have top := A.top
  have fs := frameSize_ge fr k
  have hbp := A.bp_nat
  have h8 : (S - 8#64).toNat = S.toNat - 8 := sub_nat (c := 8) (by omega)
  have h16 : (S - 16#64).toNat = S.toNat - 16 := sub_nat (c := 16) (by omega)
  -- what is not in the frame is as at the call
  have hout : ∀ a, (a.toNat < lo ∨ S.toNat ≤ a.toNat) → s1.m a = s.m a := by
    intro a ha
    rw [hm a fun x hx hc => ?_, wr_other _ _ _ _ _ (by rw [inBlk_nat (by omega)]; omega), wr_other _ _ _ _ _ (by rw [inBlk_nat (by omega)]; omega)]
    have h1 := A.frame.inside x hx
    have := (blk_frame A (.inl h1) (bytes_pos _) a).1 hc
    omega
  have key : ∀ x, ∃ v, InRange (P.Γ x) v ∧ (P.glob x = true → v = σ x) ∧ (∀ (i : Nat) (w : Int), f.params[i]? = some x → vs[i]? = some w → v = w) ∧
      ((actEnv P I f fr k S).dom x → Bytes s1.m ((actEnv P I f fr k S).addr x) (P.Γ x).bytes v) := by
    intro x
    by_cases hg : P.glob x = true
    · refine ⟨σ x, C.sok x, fun _ => rfl, fun i w hi _ => ?_, fun _ => ?_⟩
      · have := A.rules.own x (List.mem_append_left _ (List.mem_of_getElem? hi))
        rw [hg] at this
        cases this
      · rw [addr_glob A hg]
        refine Bytes.congr (C.globals x hg) (bytes_le _) fun b hb => hout b ?_
        have := A.stack x b hg hb
        omega
    · by_cases hx : x ∈ f.params
      · obtain ⟨i, hi⟩ := List.getElem?_of_mem hx
        have hil : i < vs.length := by rw [hl]; exact (List.getElem?_eq_some_iff.1 hi).1
        have hw := List.getElem?_eq_getElem hil
        generalize vs[i] = w at hw
        obtain ⟨h1, h2⟩ := C.args i x w hi hw
        refine ⟨w, h1, fun h => absurd h hg, fun j w' hj hw' => ?_, fun _ => ?_⟩
        · have := (List.getElem?_inj (List.getElem?_eq_some_iff.1 hi).1 (List.nodup_append.1 A.rules.distinct).1).1 (hi.trans hj.symm)
          subst this
          rw [hw] at hw'
          injection hw'
        · obtain ⟨o, h3, h4⟩ := addr_local A (List.mem_append_left _ hx)
          rw [h3]
          by_cases h6 : i < 6
          · rw [offset_reg A.rules hi h6 h4]
            refine hp i x w hi h6 ?_
            unfold Passed at h2
            rw [argRegister_reg h6] at h2
            exact h2
          · have h6 : 6 ≤ i := by omega
            have ho := offset_stk A.rules hi h6 h4
            have hin := (List.getElem?_eq_some_iff.1 hi).1
            unfold Passed at h2
            rw [show argRegister i = none from argRegister_none h6] at h2
            have h2 : Bytes s.m (s.r .sp + BitVec.ofNat 64 (8 * (i - 6))) (P.Γ x).bytes w := h2
            have ea : S + BitVec.ofNat 64 (8 * (i - 6)) = (actEnv P I f fr k S).bp + BitVec.ofInt 64 o := by
              rw [ho]
              show _ = S - 16#64 + _
              have : BitVec.ofInt 64 (8 * ((i : Int) - 6) + 16) = BitVec.ofNat 64 (8 * (i - 6)) + 16#64 := by
                rw [show (8 * ((i : Int) - 6) + 16) = ((8 * (i - 6) + 16 : Nat) : Int) by omega, BitVec.ofInt_natCast, BitVec.ofNat_add]
              rw [this]
              bv_omega
            rw [hS, ea] at h2
            refine Bytes.congr h2 (bytes_le _) fun b hb => hout b ?_
            have := (blk_local A h4 b).1 hb
            omega
      · by_cases hx' : x ∈ f.locals
        · obtain ⟨v, h1, h2⟩ := some_value (P.Γ x) (A.rules.bools x hx') s1.m ((actEnv P I f fr k S).addr x)
          exact ⟨v, h1, fun h => absurd h hg, fun i w hi _ => absurd (List.mem_of_getElem? hi) hx, fun _ => h2⟩
        · refine ⟨σ x, C.sok x, fun _ => rfl, fun i w hi _ => absurd (List.mem_of_getElem? hi) hx, fun h => ?_⟩
          rcases h with h | h
          · exact absurd h hg
          · rcases List.mem_append.1 h with h | h
            · exact absurd h hx
            · exact absurd h hx'
  obtain ⟨σ0, h0⟩ := Classical.axiomOfChoice key
  exact ⟨σ0, ⟨fun x => (h0 x).1, fun x hx => (h0 x).2.1 hx, fun i x v hi hv => (h0 x).2.2.1 i v hi hv⟩, fun x hx => (h0 x).2.2.2 hx⟩

end

theorem labs_prologue (P : Prog) (f : FnDef) (fr : Frame) (k : Nat) : labs (prologue P f fr k) = [] := by
  unfold prologue
  rw [labs_append, labs_append, labs_ins]
  split <;> rfl

/-- Calls do what they should, however deep. -/
theorem served {hs : HostShift} {opt : Bool} {P : Prog} {fr : Nat → Frame} {I : Image} {lo hi D : Nat} (L : Linked hs opt P fr I lo hi D) : ∀ n, Served P I lo hi D n
  | 0 => fun _ _ _ _ _ h => h.elim
  | n + 1 => by
    intro g vs σ v σ' hG f hf c pc s hcall hpc C
    obtain ⟨f', O, hf', hl, hO, hsame, hbody⟩ := hG
    rw [hf] at hf'
    injection hf' with hf'
    subst hf'
    obtain ⟨id, cc, hcode, hD⟩ := L.code g f hf
    unfold fnCode at hcode
    obtain ⟨o, ho, hcode⟩ := Option.map_eq_some_iff.1 hcode
    obtain ⟨hD1, hD2⟩ := hD o ho
    have hroom := C.room
    have hal := C.aligned
    generalize hS : s.r .sp = S at hroom hal
    have hins := C.inside
    rw [hS, hl] at hins
    have hnD : D ≤ (n + 1) * D := by rw [Nat.succ_mul]; omega
    have A : ActOk hs opt P I f (fr g) o.st S lo hi := ⟨L.rules g f hf, L.frames g f hf, L.apart, L.stack, by omega, hins, L.top⟩
    have room := A.room
    have top := A.top
    have fs := frameSize_ge (fr g) o.st
    have h8 : (S - 8#64).toNat = S.toNat - 8 := sub_nat (c := 8) (by omega)
    have h16 : (S - 16#64).toNat = S.toNat - 16 := sub_nat (c := 16) (by omega)
    -- the call
    have r0 : gsteps I 1 ((c, pc), s) = some ((g, 0), s.push (I.addr c (pc + 1))) := by
      simp only [gsteps, gstep, hcall, hS, hal, if_true, Option.bind_some]
    have p1 : (s.push (I.addr c (pc + 1))).r .sp = S - 8#64 := by
      show s.r .sp - 8 = _
      rw [hS]
      rfl
    have p2 : ∀ q, q ≠ .sp → (s.push (I.addr c (pc + 1))).r q = s.r q := fun q hq => if_neg hq
    have p3 : (s.push (I.addr c (pc + 1))).m = wr s.m (S - 8#64) 8 (I.addr c (pc + 1)) := by
      show wr s.m (s.r .sp - 8) 8 _ = _
      rw [hS]
      rfl
    generalize s.push (I.addr c (pc + 1)) = s0 at r0 p1 p2 p3
    -- the beginning of the function
    have hpro : CodeAt (I.code g) 0 (prologue P f (fr g) o.st) := by
      intro i hi
      rw [← hcode, Nat.zero_add, List.append_assoc, List.getElem?_append_left hi]
    obtain ⟨s1, r1, b1, sp1, m1, a1⟩ := prologue_run A (I.code g) hpro s0 p1
    rw [p3, p2 _ (by simp)] at m1
    obtain ⟨σ0, hen, hrel⟩ := entry_store A hS hl C m1 (fun i x v hi h6 hr => a1 i x v hi h6 (by rw [p2 _ (argReg_sp h6)]; exact hr))
    obtain ⟨σ1, ⟨N, hN⟩, hg⟩ := hbody σ0 hen
    -- the body
    have hnl : ∀ p h, (I.code g)[p]? = some (.call h) → p + 1 < (I.code g).length := by
      intro p h hp
      have h1 := (List.getElem?_eq_some_iff.1 hp).1
      refine Nat.lt_of_not_le fun h2 => ?_
      have h3 : (I.code g)[p]? = some .ret := by
        rw [← hcode] at h1 h2 ⊢
        simp only [List.length_append, List.length_cons, List.length_nil] at h1 h2
        rw [List.getElem?_append_right (by rw [List.length_append]; omega), List.length_append, show p - ((prologue P f (fr g) o.st).length + o.code.length) = 1 by omega]
        rfl
      rw [h3] at hp
      cases hp
    have hB : BodyOk (fun q => CallRules P q ∧ TempsOk hs opt P f (fr g) q ∧ 16 + frameSize (fr g) o.st + argBytes 0 q.args.length ≤ D) opt (actEnv P I f (fr g) o.st S) f.body :=
      ⟨A.rules.wf, A.rules.vars, A.rules.seq, A.rules.names, casesOk_and _ A.rules.cases (casesOk_and _ A.frame.temps hD2)⟩
    obtain ⟨lm, ex, u1, u2, u3, hat⟩ := fn_at (E := actEnv P I f (fr g) o.st S) O (bodySp (fr g) o.st S) (fun a => lo ≤ a.toNat ∧ a.toNat < S.toNat - 16)
      (fun n c c' => gsteps I n ((g, c.1), c.2) = some ((g, c'.1), c'.2)) (fresh_callStmt hs opt P.Γ (fnLoc P.Γ P.glob f (fr g)) (fr g).stk (Prog.rets P) (fr g).temp) hB ho (Nat.le_refl _)
      (prologue P f (fr g) o.st) [.leave, .ret] (labs_prologue _ _ _ _) rfl
    have hX : Cx.Ok ⟨hs, opt, actEnv P I f (fr g) o.st S, prologue P f (fr g) o.st ++ o.code ++ [.leave, .ret], f.rty, cc, lm, ex,
        fun q => CallRules P q ∧ TempsOk hs opt P f (fr g) q ∧ 16 + frameSize (fr g) o.st + argBytes 0 q.args.length ≤ D, O,
        callStmt hs opt P.Γ (fnLoc P.Γ P.glob f (fr g)) (fr g).stk (Prog.rets P) (fr g).temp, bodySp (fr g) o.st S, fun a => lo ≤ a.toNat ∧ a.toNat < S.toNat - 16,
        fun n c c' => gsteps I n ((g, c.1), c.2) = some ((g, c'.1), c'.2)⟩ := by
      refine ⟨act_ok A, u1, u2, fun n a b h => ?_, fun j k a b d h h' => ?_, ?_⟩
      · exact gsteps_local n a b (by rw [← hcode]; exact h)
      · show gsteps I (j + k) _ = _
        rw [gsteps_add, show gsteps I j ((g, a.1), a.2) = _ from h]
        exact h'
      · rintro m0 q p p' τ τ1 τ2 τ3 ws w st ⟨⟨e1, e2, e3⟩, l, q1, q2, rfl⟩ M he hOq hres
        obtain ⟨st', ⟨j, hj⟩, Q⟩ := call_run A hal hroom (served L n) (by rw [← hcode]; exact u1) q e2.1 e2.2.1 e2.2.2 e1 M.sok M.bp M.sp he (hO _ _ _ _ _ hOq) M.rel e3 hres l p
          (by rw [← hcode]; exact q1) q2 hnl
        refine ⟨j, st', hj, Q.sok, Q.bp, Q.rel, Q.sp, fun a h1 h2 => ?_⟩
        have hbn := bodySp_nat A
        have h2 : ¬ (lo ≤ a.toNat ∧ a.toNat < S.toNat - 16) := h2
        rw [Q.mem a h1 (by omega) (by omega)]
        exact M.out a h1 h2
    obtain ⟨j, d, r2, hm⟩ := csteps_sim (m0 := s1.m) hX hat N (.run hat .stop ⟨hen.sok, b1, hrel, sp1, fun _ _ _ => rfl⟩) hN
    cases hm with
    | @done _ _ st M hv =>
    have r2 : gsteps I j ((g, (prologue P f (fr g) o.st).length), s1) = some ((g, ex), st) := r2
    have Mbp : st.r .bp = S - 16#64 := M.bp
    have Mrel : Rel (actEnv P I f (fr g) o.st S) σ1 st.m := M.rel
    have Mout : ∀ a, (actEnv P I f (fr g) o.st S).Outside o.st a → ¬ (lo ≤ a.toNat ∧ a.toNat < S.toNat - 16) → st.m a = s1.m a := M.out
    -- memory that is not the function's is as after the call
    have hown : ∀ a : Word, S.toNat - 16 ≤ a.toNat ∨ a.toNat < lo → ∀ x ∈ own f, ¬ InBlk (S - 16#64 + BitVec.ofInt 64 ((fr g).ofs x)) (P.Γ x).bytes a := by
      intro a ha x hx hc
      have h1 := A.frame.inside x hx
      have := (blk_frame A (.inl h1) (bytes_pos _) a).1 hc
      omega
    have hkeep : ∀ a : Word, (∀ x, P.glob x = true → ¬ InBlk (I.sym x) (P.Γ x).bytes a) → (a.toNat < lo ∨ (S.toNat - 16 ≤ a.toNat ∧ a.toNat < S.toNat) ∨ S.toNat + argBytes 0 f.params.length ≤ a.toNat) →
        st.m a = wr (wr s.m (S - 8#64) 8 (I.addr c (pc + 1))) (S - 16#64) 8 (s.r .bp) a := by
      intro a hga ha
      rw [Mout a ⟨fun x hx hc => ?_, fun i hi hc => ?_⟩ (by omega), m1 a (hown a (by omega))]
      · rcases hx with hx | hx
        · exact hga x hx (by rw [addr_glob A hx] at hc; exact hc)
        · obtain ⟨o', h1, h2⟩ := addr_local A hx
          rw [h1] at hc
          have h3 := (blk_local A h2 a).1 hc
          have h4 := offset_in A h2
          omega
      · have := (blk_slot A hi a).1 hc
        omega
    have hstk : ∀ a : Word, S.toNat - 16 ≤ a.toNat ∧ a.toNat < S.toNat → ∀ x, P.glob x = true → ¬ InBlk (I.sym x) (P.Γ x).bytes a := by
      intro a ha x hx hc
      have := A.stack x a hx hc
      omega
    have hbp' : rd st.m (S - 16#64) 8 = s.r .bp := by
      rw [rd_congr _ (wr (wr s.m (S - 8#64) 8 (I.addr c (pc + 1))) (S - 16#64) 8 (s.r .bp)) _ _ (by omega) fun a ha => ?_, rd_wr_same _ _ _ _ (by omega)]
      · exact zx8 _
      · rw [inBlk_nat (by omega)] at ha
        exact hkeep a (hstk a (by omega)) (by omega)
    have hra : rd st.m (S - 8#64) 8 = I.addr c (pc + 1) := by
      rw [rd_congr _ (wr s.m (S - 8#64) 8 (I.addr c (pc + 1))) _ _ (by omega) fun a ha => ?_, rd_wr_same _ _ _ _ (by omega)]
      · exact zx8 _
      · rw [inBlk_nat (by omega)] at ha
        rw [hkeep a (hstk a (by omega)) (by omega), wr_other _ _ _ _ _ (by rw [inBlk_nat (by omega)]; omega)]
    -- the end of the function
    have l0 : (I.code g)[ex]? = some (.lab (.rtn cc)) := by rw [← hcode]; exact u2
    have l1 : (I.code g)[ex + 1]? = some .leave := by
      rw [← hcode, List.getElem?_append_right (by rw [List.length_append]; omega), List.length_append, u3, Nat.sub_self]; rfl
    have l2 : (I.code g)[ex + 2]? = some .ret := by
      rw [← hcode, List.getElem?_append_right (by rw [List.length_append]; omega), List.length_append, show ex + 2 - ((prologue P f (fr g) o.st).length + o.code.length) = 1 by omega]; rfl
    have t0 : gstep I ((g, ex), st) = some ((g, ex + 1), st) := gstep_local (d := (ex + 1, st)) (by unfold step; simp only [l0])
    have t1 : gstep I ((g, ex + 1), st) = some ((g, ex + 2), st.leave) := gstep_local (d := (ex + 2, st.leave)) (by unfold step; simp only [l1])
    have lsp : st.leave.r .sp = S - 8#64 := by
      show st.r .bp + 8 = _
      rw [Mbp]
      bv_omega
    have lbp : st.leave.r .bp = s.r .bp := by
      show rd st.m (st.r .bp) 8 = _
      rw [Mbp, hbp']
    have lax : st.leave.r .ax = st.r .ax := rfl
    have lm' : st.leave.m = st.m := rfl
    generalize st.leave = st2 at t1 lsp lbp lax lm'
    have t2 : gstep I ((g, ex + 2), st2) = some ((c, pc + 1), st2.setR .sp (st2.r .sp + 8)) := by
      unfold gstep
      simp only [l2, lsp, lm', hra, L.image c (pc + 1) hpc, Option.map_some]
    have r3 : gsteps I 3 ((g, ex), st) = some ((c, pc + 1), st2.setR .sp (st2.r .sp + 8)) := by
      simp only [gsteps, t0, t1, t2, Option.bind_some]
    obtain ⟨i, r1⟩ := r1
    have r1 := gsteps_local i _ _ r1
    refine ⟨1 + (i + (j + 3)), _, by rw [gsteps_add, r0, Option.bind_some, gsteps_add, r1, Option.bind_some, gsteps_add, r2, Option.bind_some, r3], ?_, ?_, fun x => ?_, fun x hx => ?_, fun w hw => ?_, fun a h1 h2 => ?_⟩
    · rw [setR_same, lsp, hS]
      bv_omega
    · rw [setR_other _ _ _ _ (by simp), lbp]
    · by_cases hx : P.glob x = true
      · rw [hg x hx]
        exact M.sok x
      · rw [hsame x (by simpa using hx)]
        exact C.sok x
    · show Bytes st2.m _ _ _
      rw [lm', hg x hx, ← addr_glob A hx]
      exact Mrel x (.inl hx)
    · rw [setR_other _ _ _ _ (by simp), lax]
      exact hv w hw
    · show st2.m a = _
      rw [lm', hl, hS] at *
      rw [hkeep a h1 (by omega), wr_other _ _ _ _ _ (by rw [inBlk_nat (by omega)]; omega), wr_other _ _ _ _ _ (by rw [inBlk_nat (by omega)]; omega)]
  termination_by n => n

end Slimcc
