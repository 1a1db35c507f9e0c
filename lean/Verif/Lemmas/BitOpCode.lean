import Verif.Lemmas.BitOp
/-! The code of compound assignments and increments of bit-fields. -/
set_option autoImplicit false
namespace Slimcc.AGen
open Slimcc Slimcc.Spec Slimcc.Spec.CTy Slimcc.Ty Slimcc.X86 Slimcc.Gen Slimcc.Addr Slimcc.BFL

/-- A field in a unit of type `t`, without the widths of eight-byte types that C21 excludes. -/
structure FldOk (t : CTy) (w bo : Nat) : Prop where
  pos : 1 ≤ w
  fits : bo + w ≤ 8 * t.bytes
  good : t.bytes = 8 → ¬ (bo % 8 = 0 ∧ (w = 8 ∨ w = 16 ∨ w = 32))

theorem uns_ity (t : CTy) : (ity t).uns = !t.isSigned := by cases t <;> rfl

theorem alt_none {t : CTy} {w bo : Nat} (h : FldOk t w bo) (h8 : t.bytes = 8) : (BF.alt ⟨ity t, w, bo⟩).isNone ∨ w = 64 := by
  by_cases h64 : w = 64
  · exact .inr h64
  · refine .inl ?_
    have hg := h.good h8
    unfold BF.alt
    dsimp only
    split
    · rename_i hb
      have hb : bo % 8 = 0 := by omega
      simp only [hb, true_and] at hg
      simp [BF.altTy, h64, show w ≠ 8 by omega, show w ≠ 16 by omega, show w ≠ 32 by omega]
    · rfl

theorem reps_uns {t : CTy} {w : Nat} (x : BitVec w) (hw : w ≤ 64) (hs : t.isSigned = false) (r : Word) (hr : r = x.setWidth 64) : Reps (ity t) (fieldInt t x) r := by
  have e : r = BitVec.ofInt 64 (fieldInt t x) := by
    rw [hr]
    simp only [fieldInt, hs, Bool.false_eq_true, if_false]
    apply BitVec.eq_of_toNat_eq
    have h1 : x.toNat < 2 ^ 64 := Nat.lt_of_lt_of_le x.isLt (Nat.pow_le_pow_right (by decide) hw)
    rw [BitVec.toNat_setWidth, Nat.mod_eq_of_lt h1, BitVec.ofInt_natCast, BitVec.toNat_ofNat, Nat.mod_eq_of_lt h1]
  exact Reps.of_eq _ _ e

theorem reps_sgn {t : CTy} {w : Nat} (x : BitVec w) (hs : t.isSigned = true) (r : Word) (h4 : r.setWidth 32 = x.signExtend 32)
    (h8 : t.bytes = 8 → r = x.signExtend 64) : Reps (ity t) (fieldInt t x) r := by
  simp only [fieldInt, hs, if_true]
  refine ⟨?_, fun hb => ?_⟩
  · by_cases hb : t.bytes = 8
    · rw [rop_8 _ (by rw [← bytes_size]; exact hb)]
      show r.setWidth 64 = BitVec.ofInt 64 x.toInt
      rw [h8 hb]; simp [BitVec.signExtend]
    · rw [rop_small _ (by rw [← bytes_size]; exact hb)]
      show r.setWidth 32 = BitVec.ofInt 32 x.toInt
      rw [h4]; rfl
  · exfalso; revert hs hb; cases t <;> decide

section
variable {C : Cfg} {P : ODecls} {E : Env} {Pg : List Line} {M : Machine} {O : Objects}

theorem blk_byte {a : Word} {t : CTy} {w bo i : Nat} (h : FldOk t w bo) (hi : i < w) : InBlk a t.bytes (a + BitVec.ofNat 64 ((bo + i) / 8)) := by
  have := h.fits
  have h8 := t8 t
  show (a + BitVec.ofNat 64 ((bo + i) / 8) - a).toNat < t.bytes
  rw [off_toNat _ _ (by omega)]
  omega

theorem field_congr {m m' : Word → BitVec 8} {a : Word} {t : CTy} {w bo : Nat} (h : FldOk t w bo) (hm : ∀ b, InBlk a t.bytes b → m' b = m b) {x : BitVec w}
    (hx : FieldIs m a bo x) : FieldIs m' a bo x := by
  intro i hi
  rw [← hx i hi]
  unfold memBit
  rw [hm _ (blk_byte h hi)]

theorem loadB_calc {s : St} {t : CTy} {w bo : Nat} (hF : FldOk t w bo) {a : Word} {x : BitVec w} (hm : ∀ b, InBlk a t.bytes b → s.m b = M.mem b)
    (hx : FieldIs M.mem a bo x) (hax : s.r .ax = a) :
    Calc E (BF.load ⟨ity t, w, bo⟩ 0) s fun s' => Reps (ity t) (fieldInt t x) (s'.r .ax) ∧ s'.r .cx = s.r .cx := by
  have hx' : FieldIs s.m (s.r .ax + BitVec.ofInt 64 0) bo x := by
    rw [hax, show BitVec.ofInt 64 0 = 0 from rfl, show a + 0 = a by simp]
    exact field_congr hF hm hx
  have h8 := t8 t
  have hfit := hF.fits
  obtain ⟨s1, h1, h2, h3, h4, h5, h6⟩ := BFL.load_run E.sym ⟨ity t, w, bo⟩ 0 hF.pos (by show bo + w ≤ 8 * (ity t).size; rw [← bytes_size]; exact hF.fits) s x hx'
  refine ⟨s1, h1, h2, fun r hr => h3 r fun e => hr (e ▸ scratch_ax), ?_, h3 .cx (by simp)⟩
  cases hs : t.isSigned with
  | false => exact reps_uns x (by omega) hs _ (h4 (by rw [uns_ity, hs]; rfl))
  | true =>
    exact reps_sgn x hs _ (h5 (by rw [uns_ity, hs]; rfl)) fun hb => h6 (by rw [uns_ity, hs]; rfl) (by rw [← bytes_size]; exact hb) (alt_none hF hb)

/-- The state after the field was given the bits `z`. -/
structure WroteB (E : Env) (M : Machine) (σ : Store) (a : Word) (n bo : Nat) {w : Nat} (z : BitVec w) (s : St) : Prop where
  bp : s.r .bp = E.bp
  rel : Rel E σ s.m
  mem : ∀ b, E.Outside E.K b → ¬ InBlk a n b → s.m b = M.mem b
  fld : FieldIs s.m a bo z
  oth : OtherBits a n bo w M.mem s.m

theorem storeB_run {σ : Store} {s : St} (h : Here E M σ s) {t : CTy} {w bo : Nat} (hF : FldOk t w bo) {a : Word} (ha : E.Apart a t.bytes) (p : TLoc)
    (hp : Saved (withObj E t a) p 8 a s) {y : Int} (hy : Reps (ity t) y (s.r .ax)) (isVoid : Bool) (gp : Nat) (hgp : ∀ i, popReg p = .tmp i → i < gp) :
    ∃ s', execs E.sym (BF.store ⟨ity t, w, bo⟩ E.stk p isVoid) s = some s' ∧ Eff (withObj E t a) gp 0 s s' ∧
      WroteB E M σ a t.bytes bo (BitVec.ofInt w y) s' ∧
      (isVoid = false → Reps (ity t) (fieldInt t (BitVec.ofInt w y)) (s'.r .ax)) := by
  have hfit := hF.fits
  have h8 := t8 t
  have hbits : (s.r .ax).setWidth w = BitVec.ofInt w y := by
    have h1 := hy.1
    unfold Low at h1
    have hle : w ≤ 8 * rop (ity t) := by have := size_le_rop (ity t); rw [← bytes_size] at this; omega
    have h2 := congrArg (fun z => BitVec.setWidth w z) h1
    have h64 : 8 * rop (ity t) ≤ 64 := by have := rop_le (ity t); omega
    rw [← sw_ofInt _ _ h64, BitVec.setWidth_setWidth_of_le _ hle, BitVec.setWidth_setWidth_of_le _ hle, sw_ofInt _ _ (by omega)] at h2
    exact h2
  have hptr : PtrAt (s.r .bp) E.stk p a s := by
    rw [h.bp]
    cases p with
    | reg i =>
      have : s.r (.tmp i) = zx 8 a := hp
      rw [zx8] at this; exact this
    | stk k =>
      have : rd s.m ((withObj E t a).slot k) 8 = zx 8 a := hp
      rw [zx8] at this; exact this
  obtain ⟨s1, h1, h2, h3, h4, h5, h6, h7, h8'⟩ := BFL.store_run E.sym ⟨ity t, w, bo⟩ _ E.stk p isVoid hF.pos (by show bo + w ≤ 8 * (ity t).size; rw [← bytes_size]; exact hF.fits) a s rfl hptr
  dsimp only at h3 h4 h5 h6 h7 h8'
  rw [hbits] at h4 h5 h6 h7 h8'
  obtain ⟨ti, hti⟩ := pop_tmp p
  have hreg : ∀ q, q ≠ .ax → q ≠ .cx → q ≠ .dx → q ≠ .tmp ti → s1.r q = s.r q := fun q a b c d => h2 q a b c (by rw [hti]; exact d)
  have hout : ∀ b, ¬ InBlk a t.bytes b → s1.m b = s.m b := by
    intro b hb
    apply BitVec.eq_of_getLsbD_eq
    intro j hj
    rw [h3 b j hj, if_neg]
    have hb : ¬ (b - a).toNat < t.bytes := hb
    omega
  have hwr : s1.m = wr s.m a t.bytes (zx t.bytes (rd s1.m a t.bytes)) := by
    funext b
    by_cases hb : InBlk a t.bytes b
    · exact byte_of_rd h8 (by rw [rd_wr_same _ _ _ _ h8, zx_zx, zx_rd _ _ _ h8]) hb
    · rw [wr_other _ _ _ _ _ hb, hout b hb]
  have hW := wrote (s := s) (s' := s1) h8 ha h (rd s1.m a t.bytes) (hreg .bp (by simp) (by simp) (by simp) (by simp)) hwr
  refine ⟨s1, h1, ⟨hreg .bp (by simp) (by simp) (by simp) (by simp), hreg .sp (by simp) (by simp) (by simp) (by simp), fun i hi _ => ?_, fun b hb _ => ?_⟩,
    ⟨hW.bp, hW.rel, hW.mem, fun i hi => ?_, fun b j hj hb hn => ?_⟩, fun hv => ?_⟩
  · exact hreg _ (by simp) (by simp) (by simp) (by intro e; injection e with e; have := hgp ti hti; omega)
  · apply hout
    have := hb 0 trivial
    rw [withObj_addr0] at this
    exact this
  · unfold memBit
    rw [h3 _ _ (Nat.mod_lt _ (by omega)), off_toNat _ _ (by omega),
      show 8 * ((bo + i) / 8) + (bo + i) % 8 = bo + i by omega, if_pos (by omega), show bo + i - bo = i by omega, ← hbits, BitVec.getLsbD_setWidth]
    simp [hi]
  · rw [h3 b j hj, if_neg (by unfold InField at hn; exact hn), h.obj ha b hb]
  · cases hs : t.isSigned with
    | false =>
      have hu : (ity t).uns = true := by rw [uns_ity, hs]; rfl
      by_cases h32 : w = 32
      · by_cases hb : t.bytes = 8
        · refine reps_uns _ (by omega) hs _ (h5 hv hu h32 ?_)
          rcases alt_none hF hb with h | h
          · exact h
          · omega
        · refine ⟨?_, fun hb' => ?_⟩
          · rw [rop_small _ (by rw [← bytes_size]; exact hb)]
            show (s1.r .ax).setWidth 32 = BitVec.ofInt 32 _
            rw [h6 hv hu]
            simp only [fieldInt, hs, Bool.false_eq_true, if_false]
            subst h32
            rw [BitVec.ofInt_natCast, BitVec.ofNat_toNat]
          · exfalso
            have : t = .bool := by revert hb'; cases t <;> simp [ity] <;> decide
            subst this
            have : CTy.bytes .bool = 1 := rfl
            omega
      · exact reps_uns _ (by omega) hs _ (h4 hv hu h32)
    | true =>
      have hu : (ity t).uns = false := by rw [uns_ity, hs]; rfl
      exact reps_sgn _ hs _ (h7 hv hu) fun hb => h8' hv hu (by rw [← bytes_size]; exact hb) (alt_none hF hb)

/-- The address saved in a temporary, something evaluated, and the store to the field. -/
theorem tailB_does (S : Setup C P E Pg M O) {t : CTy} {w bo : Nat} (hF : FldOk t w bo) (a : Word) (ha : E.Apart a t.bytes) (src : Reg) (body : G) (c : Nat) (isVoid : Bool)
    {σ1 σ2 : Store} {s1 : St} {y : Int} (h : Here E M σ1 s1) (hax : s1.r src = a)
    (hK : (tmp (pushIns E.stk true src) body (fun p => BF.store ⟨ity t, w, bo⟩ E.stk p isVoid) c).1.st ≤ E.K)
    (hbody : ∀ s2, Here E M σ1 s2 → s2.r .ax = s1.r .ax → Does E Pg (body c).1 s2 (fun s' => Here E M σ2 s' ∧ Reps (ity t) y (s'.r .ax))) :
    Does (withObj E t a) Pg (tmp (pushIns E.stk true src) body (fun p => BF.store ⟨ity t, w, bo⟩ E.stk p isVoid) c).1 s1 fun s' =>
      WroteB E M σ2 a t.bytes bo (BitVec.ofInt w y) s' ∧ (isVoid = false → Reps (ity t) (fieldInt t (BitVec.ofInt w y)) (s'.r .ax)) := by
  have hok' := withObj_ok S.hok t a ha
  refine does_tmp_mem hok' src true _ _ _ s1 (fun s2 => Here E M σ2 s2 ∧ Reps (ity t) y (s2.r .ax)) _ h.bp hK (fun s2 h1 h2 _ h4 h5 => ?_) (fun s2 p hp h1 h2 h3 => ?_)
  · exact withObj_does t a (hbody s2 (withObj_keep t a h4 h5 h h1) h2)
  · obtain ⟨i, hi, hlt⟩ := popReg_lt (pushIns E.stk true src) body (fun p => BF.store ⟨ity t, w, bo⟩ E.stk p isVoid) c
    rw [← hp] at hi
    rw [hax] at h2
    obtain ⟨s3, x3, e3, q3⟩ := storeB_run h3.1 hF ha p h2 h3.2 isVoid _ (fun j hj => by rw [hi] at hj; injection hj with hj; rw [← hj]; exact hlt)
    exact ⟨s3, x3, e3, q3⟩

/-- codegen.c:1684-1690. -/
theorem opB_does (S : Setup C P E Pg M O) {l : LV} {T : OTy} {t : CTy} (hl : LOk C P E l T) {n : Node} {w bo : Nat} (hF : FldOk t w bo)
    {σ σ1 σ2 : Store} {s : St} {a : Word} {y : Int} (c : Nat) (h : Here E M σ s) (hf : l.Fine P M E σ) (he : l.eval P M σ = .ok (a, σ1))
    (ha : E.Apart a t.bytes) {x : BitVec w} (hx : FieldIs M.mem a bo x) (hn : NullOk C E n t (fieldInt t x) σ1 σ2 y) (isVoid : Bool)
    (hK : (genOpB C P E.loc O.at_ E.stk n ⟨ity t, w, bo⟩ (buildL C P l) isVoid c).1.st ≤ E.K) :
    Does (withObj E t a) Pg (genOpB C P E.loc O.at_ E.stk n ⟨ity t, w, bo⟩ (buildL C P l) isVoid c).1 s fun s' =>
      WroteB E M σ2 a t.bytes bo (BitVec.ofInt w y) s' ∧ (isVoid = false → Reps (ity t) (fieldInt t (BitVec.ofInt w y)) (s'.r .ax)) := by
  unfold genOpB at hK ⊢
  have hK' := seq_st_le hK
  refine does_seq _ _ c s _ _ (withObj_does t a (addr_gives S hl σ s σ1 a c h hf he hK'.1)) fun s1 _ q1 => ?_
  refine tailB_does S hF a ha .ax _ _ isVoid q1.1 q1.2 hK'.2 fun s2 h2' hx2 => ?_
  have hK2 := seq_st_le (tmp_st_le hK'.2)
  refine does_seq _ _ _ s2 _ _ (here_calc h2' (loadB_calc (M := M) hF (h2'.obj ha) hx (hx2.trans q1.2)) _) fun s3 _ q3 => ?_
  exact null_does S _ hn q3.1 q3.2.1 hK2.2

/-- codegen.c:1691-1700. -/
theorem postB_does (S : Setup C P E Pg M O) {l : LV} {T : OTy} {t : CTy} (hl : LOk C P E l T) {n : Node} {w bo : Nat} (hF : FldOk t w bo)
    {σ σ1 : Store} {s : St} {a : Word} {y : Int} (c : Nat) (h : Here E M σ s) (hf : l.Fine P M E σ) (he : l.eval P M σ = .ok (a, σ1))
    (ha : E.Apart a t.bytes) {x : BitVec w} (hx : FieldIs M.mem a bo x) (hn : NullOk C E n t (fieldInt t x) σ1 σ1 y)
    (hK : (genPostB C P E.loc O.at_ E.stk n ⟨ity t, w, bo⟩ (buildL C P l) c).1.st ≤ E.K) :
    Does (withObj E t a) Pg (genPostB C P E.loc O.at_ E.stk n ⟨ity t, w, bo⟩ (buildL C P l) c).1 s fun s' =>
      WroteB E M σ1 a t.bytes bo (BitVec.ofInt w y) s' ∧ Reps (ity t) (fieldInt t x) (s'.r .ax) := by
  unfold genPostB at hK ⊢
  have hK' := seq_st_le hK
  have hK2 := seq_st_le hK'.2
  refine does_seq _ _ c s _ _ (withObj_does t a (addr_gives S hl σ s σ1 a c h hf he hK'.1)) fun s1 _ q1 => ?_
  have hstart : Calc E (.mov 8 (.reg .ax) (.reg .cx) :: BF.load ⟨ity t, w, bo⟩ 0) s1 fun s' => Reps (ity t) (fieldInt t x) (s'.r .ax) ∧ s'.r .cx = a := by
    refine calc_cons (Q := fun s2 => s2.r .cx = a ∧ s2.r .ax = a) ?_ fun s2 hm2 hr2 q2 => ?_
    · refine calc_setR' _ s1 .cx _ _ (by simp only [exec, put']; rfl) scratch_cx ⟨?_, ?_⟩
      · rw [setR_same, put_of_rop 8 _ _ (Or.inr rfl)]
        simp only [X86.get, zx8, q1.2]
      · rw [setR_other _ _ _ _ (by simp), q1.2]
    · have h2' : Here E M σ1 s2 := ⟨q1.1.sok, (hr2 .bp nbp).trans q1.1.bp, by rw [hm2]; exact q1.1.rel, fun b hb => by rw [hm2]; exact q1.1.mem b hb⟩
      have := loadB_calc (E := E) (M := M) (s := s2) hF (h2'.obj ha) hx q2.2
      exact this.imp fun s' _ q => ⟨q.1, by rw [q.2, q2.1]⟩
  refine does_seq _ _ _ s1 _ _ (withObj_does t a (here_calc q1.1 hstart _)) fun s2 _ q2 => ?_
  refine does_tmp_mem (withObj_ok S.hok t a ha) .ax true _ _ _ s2 (fun s3 => WroteB E M σ1 a t.bytes bo (BitVec.ofInt w y) s3) _ q2.1.bp hK2.2
    (fun s3 b1 b2 b3 b4 b5 => ?_) (fun s3 p hp b1 b2 b3 => ?_)
  · have h3 : Here E M σ1 s3 := withObj_keep t a b4 b5 q2.1 b1
    refine (tailB_does S hF a ha .cx _ _ true h3 (b3.trans q2.2.2) (tmp_st_le hK2.2) fun s4 h4 hx4 => ?_).imp fun s' _ q => q.1
    exact null_does S _ hn h4 (by rw [hx4, b2]; exact q2.2.1) (tmp_st_le (tmp_st_le hK2.2))
  · obtain ⟨s4, x4, r4, m4, o4⟩ := popTo_run (E := withObj E t a) p _ .ax _ s3 b1 b2
    refine ⟨s4, x4, ?_, ⟨(o4 .bp (by simp)).trans b3.bp, by rw [m4]; exact b3.rel, by rw [m4]; exact b3.mem, by rw [m4]; exact b3.fld, by rw [m4]; exact b3.oth⟩, ?_⟩
    · exact Eff.mono (Calc.eff m4 fun r hr => o4 r fun e => hr (e ▸ scratch_ax)) (Nat.zero_le _) (Nat.zero_le _)
    · rw [r4, show rsz true = 8 from rfl, zx8]; exact q2.2.1

end
end Slimcc.AGen
