import Verif.Lemmas.FnEnv
/-! Running the beginning of a function. -/
set_option autoImplicit false
namespace Slimcc
open Slimcc.Spec Slimcc.Spec.CTy Slimcc.Ty Slimcc.X86 Slimcc.Gen

section
variable {I : Image}

theorem gsteps_add (j k : Nat) (c : (Nat × Nat) × St) : gsteps I (j + k) c = (gsteps I j c).bind (gsteps I k) := by
  induction j generalizing c with
  | zero => simp [gsteps]
  | succ j ih =>
    rw [Nat.succ_add]
    simp only [gsteps]
    cases h : gstep I c with
    | none => rfl
    | some d => exact ih d

theorem gstep_local {g pc : Nat} {s : St} {d : Nat × St} (h : step I.sym (I.code g) (pc, s) = some d) : gstep I ((g, pc), s) = some ((g, d.1), d.2) := by
  unfold gstep
  dsimp only
  split
  · rename_i f hc
    unfold step at h
    rw [hc] at h
    cases h
  · rename_i hc
    unfold step at h
    rw [hc] at h
    cases h
  · rw [h]; rfl

theorem gsteps_local {g : Nat} : ∀ (n : Nat) (c d : Nat × St), steps I.sym (I.code g) n c = some d → gsteps I n ((g, c.1), c.2) = some ((g, d.1), d.2)
  | 0, c, d, h => by cases h; rfl
  | n + 1, c, d, h => by
    obtain ⟨e, h1, h2⟩ := Option.bind_eq_some_iff.1 h
    simp only [gsteps, gstep_local h1, Option.bind_some]
    exact gsteps_local n e d h2

end

theorem wr_bytes {m : Mem} {a w : Word} {n : Nat} {v : Int} (hn : n ≤ 8) (h : Low n v w) : Bytes (wr m a n w) a n v := by
  intro i hi
  unfold wr
  rw [show a + BitVec.ofNat 64 i - a = BitVec.ofNat 64 i by rw [BitVec.add_comm, BitVec.add_sub_cancel], BitVec.toNat_ofNat, Nat.mod_eq_of_lt (by omega), if_pos hi]
  apply BitVec.eq_of_getLsbD_eq
  intro j hj
  rw [byte_bits _ _ _ hj, byte_bits _ _ _ hj]
  have h1 := congrArg (fun z => z.getLsbD (8 * i + j)) h
  have h2 := congrArg (fun z => z.getLsbD (8 * i + j)) (Low.of_eq n v hn)
  simp only [BitVec.getLsbD_setWidth, show 8 * i + j < 8 * n by omega, decide_true, Bool.true_and] at h1 h2
  rw [h1, h2]

theorem rd_bytes {m : Mem} {a : Word} {n : Nat} {v : Int} (hn : n ≤ 8) (h : Low n v (rd m a n)) : Bytes m a n v := by
  intro i hi
  apply BitVec.eq_of_getLsbD_eq
  intro j hj
  rw [byte_bits _ _ _ hj]
  have h1 := congrArg (fun z => z.getLsbD (8 * i + j)) h
  have h2 := congrArg (fun z => z.getLsbD (8 * i + j)) (Low.of_eq n v hn)
  simp only [BitVec.getLsbD_setWidth, show 8 * i + j < 8 * n by omega, decide_true, Bool.true_and, rd_bits _ _ _ _ hn] at h1 h2
  rw [show (8 * i + j) / 8 = i by omega, show (8 * i + j) % 8 = j by omega] at h1
  rw [h1, h2]

theorem low_nat (n : Nat) (w : Word) (h : n ≤ 8) : Low n (w.toNat : Int) w := by
  unfold Low
  rw [BitVec.ofInt_natCast]
  apply BitVec.eq_of_toNat_eq
  rw [BitVec.toNat_setWidth, BitVec.toNat_ofNat]

theorem bytes_width (t : CTy) (h : t ≠ .bool) : 8 * t.bytes ≤ t.width := by
  cases t <;> first | exact absurd rfl h | decide

/-- Whatever memory contains, it is a value of the type. -/
theorem some_value (t : CTy) (h : t ≠ .bool) (m : Mem) (a : Word) : ∃ v, InRange t v ∧ Bytes m a t.bytes v :=
  ⟨conv t (rd m a t.bytes).toNat, conv_range _ _, rd_bytes (bytes_le t) ((low_nat _ _ (bytes_le t)).conv t h (bytes_width t h))⟩

theorem inReg_low {t : CTy} {v : Int} {x : Word} (h : InReg t v x) : Low t.bytes v x := by
  have := ((reps_inReg t v x).2 h).low
  rwa [← bytes_size] at this

theorem Spec.Bytes.congr {m m' : Mem} {a : Word} {n : Nat} {v : Int} (h : Bytes m a n v) (hn : n ≤ 8) (e : ∀ b, InBlk a n b → m' b = m b) : Bytes m' a n v :=
  fun i hi => by rw [e _ (inBlk_add a n i hi hn)]; exact h i hi

theorem stores_none (Γ : Nat → CTy) (fr : Frame) : ∀ (ps : List Nat) (k gp : Nat), 6 ≤ k →
    paramStores Γ fr (ps.zip ((List.range' k ps.length).map (slotOf 0))) gp = []
  | [], _, _, _ => rfl
  | p :: ps, k, gp, hk => by
    simp only [List.length_cons, List.range'_succ, List.map_cons, List.zip_cons_cons]
    unfold slotOf
    rw [if_neg (by omega)]
    exact stores_none Γ fr ps (k + 1) gp (by omega)

theorem stores_run (sym : Nat → Word) (Γ : Nat → CTy) (fr : Frame) (bp : Word) : ∀ (ps : List Nat) (k : Nat) (s : St), s.r .bp = bp →
    (∀ i j x y, ps[i]? = some x → ps[j]? = some y → k + i < 6 → k + j < 6 → i ≠ j → Disj (bp + BitVec.ofInt 64 (fr.ofs x)) (Γ x).bytes (bp + BitVec.ofInt 64 (fr.ofs y)) (Γ y).bytes) →
    ∃ s', execs sym (paramStores Γ fr (ps.zip ((List.range' k ps.length).map (slotOf 0))) k) s = some s' ∧ s'.r = s.r ∧
      (∀ a, (∀ i x, ps[i]? = some x → k + i < 6 → ¬ InBlk (bp + BitVec.ofInt 64 (fr.ofs x)) (Γ x).bytes a) → s'.m a = s.m a) ∧
      ∀ i x v, ps[i]? = some x → k + i < 6 → InReg (Γ x) v (s.r (argReg (k + i))) → Bytes s'.m (bp + BitVec.ofInt 64 (fr.ofs x)) (Γ x).bytes v
  | [], k, s, hbp, hd => ⟨s, rfl, rfl, fun _ _ => rfl, fun i x v h => by simp at h⟩
  | p :: ps, k, s, hbp, hd => by
    by_cases hk : k < 6
    · let s1 : St := { s with m := wr s.m (bp + BitVec.ofInt 64 (fr.ofs p)) (ity (Γ p)).size (zx (ity (Γ p)).size (s.r (argReg k))) }
      obtain ⟨s', h1, h2, h3, h4⟩ := stores_run sym Γ fr bp ps (k + 1) s1 hbp fun i j x y hx hy h5 h6 hne =>
        hd (i + 1) (j + 1) x y hx hy (by omega) (by omega) (by omega)
      have hx : exec sym (.mov (ity (Γ p)).size (.reg (argReg k)) (.mem (.frame (fr.ofs p)))) s = some s1 := by
        show some _ = some _
        simp only [ea, X86.get, hbp]
        rfl
      refine ⟨s', ?_, h2, fun a ha => ?_, fun i x v hi h6 hv => ?_⟩
      · simp only [List.length_cons, List.range'_succ, List.map_cons, List.zip_cons_cons]
        rw [show slotOf 0 k = .inRegs by unfold slotOf; rw [if_pos (by omega)]]
        simp only [paramStores, execs, hx, Option.bind_some]
        exact h1
      · rw [h3 a fun i x hi h6 => ha (i + 1) x hi (by omega)]
        exact wr_other _ _ _ _ _ (by have := ha 0 p rfl hk; rwa [bytes_size] at this)
      · cases i with
        | zero =>
          simp only [List.getElem?_cons_zero, Option.some.injEq] at hi
          subst hi
          have hb : Bytes s1.m (bp + BitVec.ofInt 64 (fr.ofs p)) (Γ p).bytes v := by
            have := (inReg_low hv)
            rw [bytes_size] at this ⊢
            exact wr_bytes (size_le _).1 this.zx
          refine Bytes.congr hb (bytes_le _) fun b hb => h3 b fun i x hi h6 hc => ?_
          exact hd 0 (i + 1) p x rfl hi hk (by omega) (by omega) b ⟨hb, hc⟩
        | succ i => exact h4 i x v hi (by omega) (by rw [show k + 1 + i = k + (i + 1) by omega]; exact hv)
    · rw [stores_none Γ fr (p :: ps) k k (by omega)]
      exact ⟨s, rfl, rfl, fun _ _ => rfl, fun i x v _ h6 => by omega⟩

theorem argRegister_reg {k : Nat} (h : k < 6) : argRegister k = some (argReg k) := by
  match k, h with
  | 0, _ | 1, _ | 2, _ | 3, _ | 4, _ | 5, _ => rfl

section
variable {hs : HostShift} {opt : Bool} {P : Prog} {I : Image} {f : FnDef} {fr : Frame} {k : Nat} {S : Word} {lo hi : Nat}

/-- The beginning of a function, entered with the return address at `S - 8`. -/
theorem prologue_run (A : ActOk hs opt P I f fr k S lo hi) (code : List Line) (hc : CodeAt code 0 (prologue P f fr k)) (s : St) (hsp : s.r .sp = S - 8#64) :
    ∃ s', Runs I.sym code (0, s) ((prologue P f fr k).length, s') ∧ s'.r .bp = S - 16#64 ∧ s'.r .sp = S - 16#64 - BitVec.ofNat 64 (frameSize fr k) ∧
      (∀ a, (∀ x ∈ own f, ¬ InBlk (S - 16#64 + BitVec.ofInt 64 (fr.ofs x)) (P.Γ x).bytes a) → s'.m a = wr s.m (S - 16#64) 8 (s.r .bp) a) ∧
      ∀ i x v, f.params[i]? = some x → i < 6 → InReg (P.Γ x) v (s.r (argReg i)) → Bytes s'.m (S - 16#64 + BitVec.ofInt 64 (fr.ofs x)) (P.Γ x).bytes v := by
  unfold prologue at hc ⊢
  rw [codeAt_append, codeAt_append] at hc
  obtain ⟨⟨c1, c2⟩, c3⟩ := hc
  obtain ⟨c0, c1⟩ := (codeAt_cons _ _ _ _).1 c1
  obtain ⟨c1, -⟩ := (codeAt_cons _ _ _ _).1 c1
  have e16 : S - 8#64 - 8#64 = S - 16#64 := by bv_omega
  -- push %rbp; mov %rsp, %rbp
  let s1 := s.push (s.r .bp)
  have hs1 : s1.r .sp = S - 16#64 := by
    show s.r .sp - 8#64 = _
    rw [hsp]; exact e16
  let s2 := s1.setR .bp (S - 16#64)
  have r1 : Runs I.sym code (0, s) (1, s1) := Runs.one (by unfold step; simp only [c0]; rfl)
  have r2 : Runs I.sym code (1, s1) (2, s2) := by
    refine Runs.one ?_
    unfold step
    simp only [Nat.zero_add] at c1
    simp only [c1, exec, X86.get, put', put, hs1, zx8, if_pos, Option.map_some]
    rfl
  have hm2 : s2.m = wr s.m (S - 16#64) 8 (s.r .bp) := by
    show wr s.m (s.r .sp - 8) 8 _ = _
    rw [hsp]
    exact congrArg (fun a => wr s.m a 8 (s.r .bp)) e16
  have hr2 : ∀ q, q ≠ .sp → q ≠ .bp → s2.r q = s.r q := by
    intro q h1 h2
    rw [setR_other _ _ _ _ h2]
    show (if q = .sp then _ else _) = _
    rw [if_neg h1]
  -- the frame
  have hsub : ∃ s3, Runs I.sym code (2, s2) (2 + (if fr.stk + 8 * k ≠ 0 then [Line.ins (.alu .sub 8 (.imm (BitVec.ofNat 64 (frameSize fr k))) (.reg .sp))] else []).length, s3) ∧
      s3.m = s2.m ∧ s3.r .sp = S - 16#64 - BitVec.ofNat 64 (frameSize fr k) ∧ ∀ q, q ≠ .sp → s3.r q = s2.r q := by
    have h0 : s2.r .sp = S - 16#64 := by rw [setR_other _ _ _ _ (by simp)]; exact hs1
    by_cases hp : fr.stk + 8 * k ≠ 0
    · rw [if_pos hp] at c2 ⊢
      obtain ⟨c2, -⟩ := (codeAt_cons _ _ _ _).1 c2
      refine ⟨{ s2.setR .sp (S - 16#64 - BitVec.ofNat 64 (frameSize fr k)) with f := none }, Runs.one ?_, rfl, setR_same s2 .sp (S - 16#64 - BitVec.ofNat 64 (frameSize fr k)), fun q hq => setR_other s2 .sp q (S - 16#64 - BitVec.ofNat 64 (frameSize fr k)) hq⟩
      unfold step
      simp only [List.length_cons, List.length_nil, Nat.zero_add, Nat.reduceAdd] at c2
      simp only [c2]
      have := spins I.sym .sub (frameSize fr k) s2
      rw [this, h0]
      rfl
    · rw [if_neg hp]
      have : frameSize fr k = 0 := by unfold frameSize CC.alignTo; omega
      rw [this]
      exact ⟨s2, Runs.refl _ _ _, rfl, by rw [h0]; exact (BitVec.sub_zero _).symm, fun _ _ => rfl⟩
  obtain ⟨s3, r3, m3, sp3, q3⟩ := hsub
  have hbp3 : s3.r .bp = S - 16#64 := (q3 _ (by simp)).trans (setR_same _ _ _)
  -- the parameters
  rw [paramSlots_eq] at c3 ⊢
  have htake : ∀ i x, f.params[i]? = some x → i < 6 → x ∈ own f := fun i x hi h6 =>
    List.mem_append_left _ (List.mem_of_getElem? (i := i) (by rw [List.getElem?_take_of_lt h6]; exact hi))
  obtain ⟨s4, x4, e4, m4, b4⟩ := stores_run I.sym P.Γ fr (S - 16#64) f.params 0 s3 hbp3 (by
    intro i j x y hi hj h6 h7 hne a ha
    have hx := htake i x hi (by omega)
    have hy := htake j y hj (by omega)
    have hxy : x ≠ y := by
      intro e
      subst e
      have hn := (List.nodup_append.1 A.rules.distinct).1
      exact hne ((List.getElem?_inj (List.getElem?_eq_some_iff.1 hi).1 hn).1 (hi.trans hj.symm))
    have h1 := (blk_local A (.inl ⟨hx, rfl⟩) a).1 ha.1
    have h2 := (blk_local A (.inl ⟨hy, rfl⟩) a).1 ha.2
    have h3 := A.frame.apart x hx y hy hxy
    unfold OfsApart at h3
    omega)
  have r4 := runs_execs code I.sym _ s3 s4 x4 _ c3
  refine ⟨s4, ?_, by rw [e4]; exact hbp3, by rw [e4]; exact sp3, fun a ha => ?_, fun i x v hi h6 hv => ?_⟩
  · generalize (if fr.stk + 8 * k ≠ 0 then [Line.ins (.alu .sub 8 (.imm (BitVec.ofNat 64 (frameSize fr k))) (.reg .sp))] else []) = l at r3 r4 ⊢
    simp only [List.length_append, List.length_map, List.length_cons, List.length_nil, Nat.zero_add, Nat.reduceAdd] at r4 ⊢
    exact ((r1.trans r2).trans r3).trans r4
  · rw [m4 a fun i x hi h6 => ha x (htake i x hi (by omega)), m3, hm2]
  · refine b4 i x v hi (by omega) ?_
    rw [Nat.zero_add]
    have h1 : argReg i ≠ .sp := by match i, h6 with | 0, _ | 1, _ | 2, _ | 3, _ | 4, _ | 5, _ => decide
    have h2 : argReg i ≠ .bp := by match i, h6 with | 0, _ | 1, _ | 2, _ | 3, _ | 4, _ | 5, _ => decide
    rw [q3 _ h1, hr2 _ h1 h2]
    exact hv

end
end Slimcc
