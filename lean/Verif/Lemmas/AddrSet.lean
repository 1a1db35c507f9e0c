import Verif.Lemmas.AddrIdx
/-! The code of designators: all of it, and assignments. -/
set_option autoImplicit false
namespace Slimcc.AGen
open Slimcc Slimcc.Spec Slimcc.Spec.CTy Slimcc.Ty Slimcc.X86 Slimcc.Gen Slimcc.Addr

section
variable {C : Cfg} {P : ODecls} {E : Env} {Pg : List Line} {M : Machine} {O : Objects}

theorem all_ok (S : Setup C P E Pg M O) : ∀ f, ∀ f' ≤ f, GAddr C P E Pg M O f' ∧ GVal C P E Pg M O f' ∧ GPtr C P E Pg M O f' ∧ GIdx C P E Pg M O f'
  | 0, f', h => by
    obtain rfl : f' = 0 := by omega
    refine ⟨fun l _ _ h => ?_, fun l _ _ h => ?_, fun p _ _ h => ?_, fun i _ size _ h => ?_⟩
    · have := height_pos (buildL C P l); omega
    · omega
    · omega
    · omega
  | f + 1, f', h => by
    by_cases e : f' = f + 1
    · subst e
      have ih := all_ok S f
      have i := ih f (Nat.le_refl _)
      have hV := stepVal S f i.1 i.2.2.1
      exact ⟨stepAddr S f i.1 i.2.2.1, hV, stepPtr S f i.1 i.2.2.1 i.2.2.2 hV, stepIdx S f fun f' h => (ih f' h).2.1⟩
    · exact all_ok S f f' (by omega)

theorem addr_gives (S : Setup C P E Pg M O) {l : LV} {t : OTy} (hl : LOk C P E l t) :
    Gives E Pg M (genAddrA C P E.loc O.at_ E.stk (buildL C P l)) (l.eval P M) (l.Fine P M E) (fun a x => x = a) :=
  (all_ok S _ _ (Nat.le_refl _)).1 l t hl (Nat.le_refl _)

theorem val_gives (S : Setup C P E Pg M O) {l : LV} {t : OTy} (hl : LOk C P E l t) :
    Gives E Pg M (genExprA C P E.loc O.at_ E.stk (buildL C P l)) (l.eval P M) (fun σ => l.Fine P M E σ ∧ Acc P M E l t σ) (fun a x => LVal M t a x) :=
  (all_ok S _ _ (Nat.le_refl _)).2.1 l t hl (Nat.le_refl _)

theorem ptr_gives (S : Setup C P E Pg M O) {p : PE} {t : OTy} (hp : POk C P E p t) :
    Gives E Pg M (genExprA C P E.loc O.at_ E.stk (buildP C P p)) (p.eval P M) (p.Fine P M E) (fun a x => x = a) :=
  (all_ok S _ _ (Nat.le_refl _)).2.2.1 p t hp (Nat.le_refl _)

/-- The right operand of an assignment to an integer object. -/
theorem int_cast_gives (S : Setup C P E Pg M O) {i : IE} {u : CTy} (hi : IOk C P E i u) (t : CTy) (hb : t = .bool → ∃ e, i = .expr e) :
    Gives E Pg M (genExprA C P E.loc O.at_ E.stk (castA C P (buildI C P i) (.int t))) (i.eval P M) (i.Fine P M E) (fun v x => Reps (ity t) (conv t v) x) := by
  cases i with
  | expr e =>
    have eb : castA C P (buildI C P (.expr e)) (.int t) = .int t (build C.hs C.opt P.ints (.cast t e)) := rfl
    have hu : Usable E C.opt [Expr.cast t e] := by
      intro e' he'
      simp only [List.mem_singleton] at he'
      subst he'
      exact hi.usable e (by simp [IE.exprs])
    rw [eb]
    intro σ s σ' v c h hf he hK
    have he : ceval P.ints e σ = .ok (v, σ') := he
    have hc : ceval P.ints (.cast t e) σ = .ok (conv t v, σ') := by
      show (do let (v, σ) ← ceval P.ints e σ; Res.ok (conv t v, σ)) = _
      rw [he]; rfl
    exact int_gives (P := P) (O := O) S _ (.cast t e) t hi.wf hu σ s σ' _ c h trivial hc hK
  | obj l =>
    have hty : ∃ t0, l.ty P = some (.int t0) := by
      have := hi.ty
      unfold IE.ty at this
      split at this
      · exact ⟨_, by assumption⟩
      · cases this
    obtain ⟨t0, hty⟩ := hty
    have hl : LOk C P E l (.int t0) := ⟨hty, hi.wf, hi.conv, hi.usable⟩
    have hnb : t ≠ .bool := by
      intro e
      obtain ⟨_, h⟩ := hb e
      cases h
    obtain ⟨g, o, hg⟩ := (OC.base (C := C) (P := P) (l := l) (t0 := t0)).castA S.hC hty hi.conv t hnb
    intro σ s σ' v c h hf he hK
    rw [IE.eval] at he
    obtain ⟨⟨a, σ1⟩, e1, e2⟩ := res_bind he
    rw [hty] at e2
    dsimp only at e2
    injection e2 with e2; injection e2 with e2 e3
    subst e3
    have hacc : Acc P M E l (.int t0) σ := hf.2 t0 hty
    refine (stepOC S hl o _ (fun f' _ => (all_ok S _ f' (Nat.le_refl _)).2.1) (Nat.le_refl _) σ s _ a c h ⟨hf.1, hacc⟩ e1 hK).imp fun s' _ q => ⟨q.1, ?_⟩
    have q2 : Reps (ity t) (g (M.int t0 a)) (s'.r .ax) := q.2
    rw [hg _ (hacc.avail e1).2] at q2
    rw [← e2]
    exact q2
  | ofPtr _ _ => exact hi.conv.elim
  | plus _ _ => exact hi.conv.elim

/-! Writing. -/

/-- The environment with the object written as a variable. -/
def withObj (E : Env) (t : CTy) (a : Word) : Env :=
  { E with
    Γ := fun | 0 => t | x + 1 => E.Γ x
    dom := fun | 0 => True | x + 1 => E.dom x
    loc := fun | 0 => .frame (a - E.bp).toInt | x + 1 => E.loc x }

theorem withObj_addr0 (E : Env) (t : CTy) (a : Word) : (withObj E t a).addr 0 = a := by
  show E.bp + BitVec.ofInt 64 (a - E.bp).toInt = a
  rw [BitVec.ofInt_toInt, BitVec.add_comm, BitVec.sub_add_cancel]

theorem withObj_addr (E : Env) (t : CTy) (a : Word) (x : Nat) : (withObj E t a).addr (x + 1) = E.addr x := rfl
theorem withObj_size (E : Env) (t : CTy) (a : Word) (x : Nat) : (withObj E t a).size (x + 1) = E.size x := rfl
theorem withObj_slot (E : Env) (t : CTy) (a : Word) (k : Nat) : (withObj E t a).slot k = E.slot k := rfl

theorem withObj_ok (hok : E.Ok) (t : CTy) (a : Word) (ha : E.Apart a t.bytes) : (withObj E t a).Ok := by
  refine ⟨fun x hx => ?_, fun x y hx hy hne => ?_, fun x k hx hk => ?_, hok.room⟩
  · cases x with
    | zero => exact .inl ⟨_, rfl⟩
    | succ x => exact hok.direct x hx
  · cases x with
    | zero =>
      cases y with
      | zero => exact absurd rfl hne
      | succ y =>
        rw [withObj_addr0, withObj_addr, withObj_size]
        exact fun c hc => (ha c hc.1).1 y hy hc.2
    | succ x =>
      cases y with
      | zero =>
        rw [withObj_addr0, withObj_addr, withObj_size]
        exact fun c hc => (ha c hc.2).1 x hx hc.1
      | succ y => exact hok.vars x y hx hy (by omega)
  · cases x with
    | zero =>
      rw [withObj_addr0, withObj_slot]
      exact fun c hc => (ha c hc.1).2 k hk hc.2
    | succ x => exact hok.slots x k hx hk

theorem withObj_does (t : CTy) (a : Word) {o : Out} {s : St} {Q : St → Prop} (h : Does E Pg o s Q) : Does (withObj E t a) Pg o s Q := by
  intro pc hc
  obtain ⟨s', h1, h2, h3⟩ := h pc hc
  exact ⟨s', h1, ⟨h2.bp, h2.sp, h2.regs, fun b hb hk => h2.mem b (fun x hx => hb (x + 1) hx) hk⟩, h3⟩

theorem byte_of_rd {m m' : Word → BitVec 8} {a : Word} {n : Nat} (hn : n ≤ 8) (h : rd m a n = rd m' a n) {b : Word} (hb : InBlk a n b) : m b = m' b := by
  have hb' : (b - a).toNat < n := hb
  have eb : a + BitVec.ofNat 64 (b - a).toNat = b := by
    rw [BitVec.ofNat_toNat, BitVec.setWidth_eq, BitVec.add_comm, BitVec.sub_add_cancel]
  generalize (b - a).toNat = k at *
  apply BitVec.eq_of_getLsbD_eq
  intro i hi
  have h1 := congrArg (fun x => BitVec.getLsbD x (8 * k + i)) h
  simp only [rd_bits _ _ _ _ hn] at h1
  rw [show (8 * k + i) / 8 = k by omega, show (8 * k + i) % 8 = i by omega, eb] at h1
  simpa [show 8 * k + i < 8 * n by omega] using h1

/-- What the push of a temporary leaves: everything. -/
theorem withObj_keep (t : CTy) (a : Word) {s s1 : St} {σ : Store} (hr : ∀ σ, Rel (withObj E t a) σ s.m → Rel (withObj E t a) σ s1.m)
    (ho : ∀ b, (withObj E t a).Outside E.K b → s1.m b = s.m b) (h : Here E M σ s) (hbp : s1.r .bp = E.bp) : Here E M σ s1 := by
  have h8 : t.bytes ≤ 8 := by rw [bytes_size]; exact (size_le _).1
  let σ' : Store := fun | 0 => (rd s.m a t.bytes).toInt | x + 1 => σ x
  have h0 : Rel (withObj E t a) σ' s.m := by
    rw [rel_iff]
    intro x hx
    cases x with
    | zero =>
      rw [withObj_addr0]
      show rd s.m a t.bytes = zx t.bytes (BitVec.ofInt 64 (rd s.m a t.bytes).toInt)
      rw [BitVec.ofInt_toInt, zx_rd _ _ _ h8]
    | succ x =>
      have := (rel_iff E σ s.m).1 h.rel x hx
      rw [withObj_addr, withObj_size]; exact this
  have h1 := (rel_iff _ _ _).1 (hr σ' h0)
  refine ⟨h.sok, hbp, ?_, fun b hb => ?_⟩
  · rw [rel_iff]
    intro x hx
    exact h1 (x + 1) hx
  · by_cases hin : InBlk a t.bytes b
    · have := h1 0 trivial
      rw [withObj_addr0] at this
      have h2 := (rel_iff _ _ _).1 h0 0 trivial
      rw [withObj_addr0] at h2
      have e : rd s1.m a t.bytes = rd s.m a t.bytes := this.trans h2.symm
      rw [byte_of_rd h8 e hin]
      exact h.mem b hb
    · rw [ho b ⟨fun x hx => ?_, hb.2⟩]
      · exact h.mem b hb
      · cases x with
        | zero => rw [withObj_addr0]; exact hin
        | succ x => exact hb.1 x hx

/-- The state after the write. -/
structure Wrote (E : Env) (M : Machine) (σ : Store) (a : Word) (n : Nat) (x : Word) (s : St) : Prop where
  bp : s.r .bp = E.bp
  rel : Rel E σ s.m
  mem : ∀ b, E.Outside E.K b → ¬ InBlk a n b → s.m b = M.mem b
  obj : rd s.m a n = zx n x

theorem wrote {σ : Store} {s s' : St} {a : Word} {n : Nat} (hn : n ≤ 8) (ha : E.Apart a n) (h : Here E M σ s) (x : Word) (hbp : s'.r .bp = s.r .bp)
    (hm : s'.m = wr s.m a n (zx n x)) : Wrote E M σ a n x s' := by
  refine ⟨hbp.trans h.bp, ?_, fun b hb hi => ?_, by rw [hm, rd_wr_same _ _ _ _ hn, zx_zx]⟩
  · rw [rel_iff]
    intro y hy
    rw [hm, rd_wr_disj _ _ _ _ _ _ (E.size_le y) (fun c hc => (ha c hc.1).1 y hy hc.2)]
    exact (rel_iff E σ s.m).1 h.rel y hy
  · rw [hm, wr_other _ _ _ _ _ hi]
    exact h.mem b hb

/-- codegen.c:1672-1690, 2893-2897. -/
theorem assign_does (S : Setup C P E Pg M O) {l : LV} {tl : OTy} (hl : LOk C P E l tl) (hg : gpTy tl = true) (r : ANode)
    {α : Type} (val : Store → Res (α × Store)) (fine : Store → Prop) (R : α → Word → Prop)
    (hr : Gives E Pg M (genExprA C P E.loc O.at_ E.stk r) val fine R)
    {σ σ1 σ2 : Store} {s : St} {a : Word} {v : α} (c : Nat) (h : Here E M σ s) (hf : l.Fine P M E σ) (he : l.eval P M σ = .ok (a, σ1))
    (ha : E.Apart a (rowTy tl).size) (hfr : fine σ1) (hv : val σ1 = .ok (v, σ2))
    (hK : (genAssign C P E.loc O.at_ E.stk (buildL C P l) r c).1.st ≤ E.K) :
    ∀ pc, CodeAt Pg pc (genAssign C P E.loc O.at_ E.stk (buildL C P l) r c).1.code →
      ∃ s', Runs E.sym Pg (pc, s) (pc + (genAssign C P E.loc O.at_ E.stk (buildL C P l) r c).1.code.length, s') ∧
        R v (s'.r .ax) ∧ Wrote E M σ2 a (rowTy tl).size (s'.r .ax) s' := by
  have hty := buildL_ty C P S.hC l tl hl.ty
  obtain ⟨t, ht⟩ : ∃ t : CTy, t.bytes = (rowTy tl).size := by
    cases tl with
    | int u => exact ⟨u, bytes_size u⟩
    | ptr u => exact ⟨.ulong, rfl⟩
    | arr _ _ => cases hg
    | struct _ => cases hg
  have h8 : (rowTy tl).size ≤ 8 := (size_le _).1
  have hok' := withObj_ok S.hok t a (by rw [ht]; exact ha)
  have eff : ∀ (gp st : Nat) (s s' : St), s'.m = wr s.m a (rowTy tl).size (zx (rowTy tl).size (s.r .ax)) → s'.r .bp = s.r .bp → s'.r .sp = s.r .sp →
      (∀ i, gp ≤ i → i < GP_SLOTS → s'.r (.tmp i) = s.r (.tmp i)) → Eff (withObj E t a) gp st s s' := by
    intro gp st s s' h1 h2 h2' h3
    refine ⟨h2, h2', h3, fun b hb _ => ?_⟩
    rw [h1]
    apply wr_other
    have := hb 0 trivial
    rw [withObj_addr0] at this
    rw [← ht]; exact this
  have hres : Does (withObj E t a) Pg (genAssign C P E.loc O.at_ E.stk (buildL C P l) r c).1 s fun s' =>
      R v (s'.r .ax) ∧ Wrote E M σ2 a (rowTy tl).size (s'.r .ax) s' := by
    unfold genAssign at hK ⊢
    rw [hty] at hK ⊢
    cases hm : (if C.opt then memopA C P E.loc O.at_ (buildL C P l) else none) with
    | some m =>
      rw [hm] at hK
      dsimp only at hK ⊢
      have hm' : evalMemop C P O.at_ false (buildL C P l) = some m := by
        split at hm
        · rw [← (buildL_isPlace (C := C) S.hC l _ hl.ty).memopA]; exact hm
        · cases hm
      obtain ⟨x, o, rfl, hx⟩ := evalMemop_some hm'
      obtain ⟨e1, e2⟩ := place_at S.hC l _ hl.ty hl.wf hl.conv hx (S.sok h) hf he
      subst e2
      have := hr _ s σ2 v c h hfr hv (seq_st1 hK)
      refine does_seq _ _ c s _ _ (withObj_does t a this) fun s1 _ q => ?_
      have ea1 : ea E.sym s1 (O.at_ x o) = a := by rw [ea_obj S q.1.bp, e1]
      have hx1 : execs E.sym [.mov (rowTy tl).size (.reg .ax) (.mem (O.at_ x o))] s1 = some { s1 with m := wr s1.m a (rowTy tl).size (zx (rowTy tl).size (s1.r .ax)) } := by
        rw [← ea1]; rfl
      exact does_inss (E := withObj E t a) _ s1 _ _ hx1 (eff 0 0 s1 _ rfl rfl rfl fun _ _ _ => rfl) ⟨q.2, wrote h8 ha q.1 _ rfl rfl⟩ _
    | none =>
      rw [hm] at hK
      dsimp only at hK ⊢
      have hK' := seq_st_le hK
      refine does_seq _ _ c s _ _ (withObj_does t a (addr_gives S hl σ s σ1 a c h hf he hK'.1)) fun s1 _ q1 => ?_
      refine does_tmp_mem hok' .ax true _ _ _ s1 (fun s2 => Here E M σ2 s2 ∧ R v (s2.r .ax)) _ q1.1.bp hK'.2 (fun s2 h1 _ _ h4 h5 => ?_) (fun s2 p hp h1 h2 h3 => ?_)
      · exact withObj_does t a (hr σ1 s2 σ2 v _ (withObj_keep t a h4 h5 q1.1 h1) hfr hv (tmp_st_le hK'.2))
      · obtain ⟨i, hi, hlt⟩ := popReg_lt (pushIns E.stk true .ax) (genExprA C P E.loc O.at_ E.stk r)
          (fun p => popIn E.stk true p ++ [.mov (rowTy tl).size (.reg .ax) (.mem (.off (popReg p) 0))]) (genAddrA C P E.loc O.at_ E.stk (buildL C P l) c).2
        rw [← hp] at hi
        obtain ⟨s3, x3, r3, m3, o3⟩ := popIn_run (E := withObj E t a) p _ _ s2 h1 h2
        rw [hi] at r3 o3
        rw [show rsz true = 8 from rfl, zx8, q1.2] at r3
        have hax : s3.r .ax = s2.r .ax := o3 .ax (by simp)
        have ea3 : ea E.sym s3 (.off (.tmp i) 0) = a := by rw [ea_off, r3]; simp
        have x3 : execs E.sym (popIn E.stk true p) s2 = some s3 := x3
        refine ⟨{ s3 with m := wr s3.m a (rowTy tl).size (zx (rowTy tl).size (s3.r .ax)) }, ?_, ?_, ?_, ?_⟩
        · show execs E.sym _ _ = _
          rw [execs_append, x3, hi, ← ea3]; rfl
        · refine eff _ _ _ _ (by rw [← hax, ← m3]) (o3 .bp (by simp)) (o3 .sp (by simp)) fun j hj _ => ?_
          have hj : (tmp (pushIns E.stk true .ax) (genExprA C P E.loc O.at_ E.stk r)
            (fun p => popIn E.stk true p ++ [.mov (rowTy tl).size (.reg .ax) (.mem (.off (popReg p) 0))]) (genAddrA C P E.loc O.at_ E.stk (buildL C P l) c).2).1.gp ≤ j := hj
          exact o3 _ (by intro e; injection e; omega)
        · show R v (s3.r .ax)
          rw [hax]; exact h3.2
        · refine wrote h8 ha h3.1 _ (o3 .bp (by simp)) ?_
          show wr s3.m a _ (zx _ (s3.r .ax)) = wr s2.m a _ (zx _ (s3.r .ax))
          rw [m3]
  intro pc hc
  obtain ⟨s', h1, _, h3⟩ := hres pc hc
  exact ⟨s', h1, h3⟩

/-- The value of the object written. -/
theorem wrote_word {σ : Store} {a x : Word} {n : Nat} {s : St} (hn : n ≤ 8) (h : Wrote E M σ a n x s) :
    BitVec.ofNat 64 ((Machine.mk M.addr s.m).word a n) = zx n x := by
  rw [← rd_word ⟨M.addr, s.m⟩ s.m a n hn (fun _ _ => rfl)]
  exact h.obj

theorem zx_dvd {n : Nat} (hn : n ≤ 8) {v w : Int} (h : zx n (BitVec.ofInt 64 v) = zx n (BitVec.ofInt 64 w)) : (2 : Int) ^ (8 * n) ∣ v - w := by
  have h1 := congrArg BitVec.toNat h
  rw [zx_toNat _ _ hn, zx_toNat _ _ hn] at h1
  have key : ∀ v : Int, (((BitVec.ofInt 64 v).toNat % 2 ^ (8 * n) : Nat) : Int) = v % 2 ^ (8 * n) := by
    intro v
    rw [Int.natCast_emod, BitVec.toNat_ofInt, Int.toNat_of_nonneg (Int.emod_nonneg _ (by decide))]
    have e : ((2 ^ (8 * n) : Nat) : Int) = 2 ^ (8 * n) := by simp
    rw [e]
    exact Int.emod_emod_of_dvd v (by
      show (2 : Int) ^ (8 * n) ∣ ((2 ^ 64 : Nat) : Int)
      have : ((2 ^ 64 : Nat) : Int) = 2 ^ (8 * n) * 2 ^ (64 - 8 * n) := by
        rw [← Int.pow_add, show 8 * n + (64 - 8 * n) = 64 by omega]; rfl
      rw [this]; exact ⟨_, rfl⟩)
  have := key v
  rw [h1, key w] at this
  exact Int.dvd_of_emod_eq_zero (Int.emod_eq_emod_iff_emod_sub_eq_zero.1 this.symm)

theorem wrote_low {σ : Store} {a x : Word} {s : St} {t : CTy} {v : Int} (hv : InRange t v) (h : Wrote E M σ a t.bytes x s) (hr : Low t.bytes v x) :
    (Machine.mk M.addr s.m).int t a = v := by
  have h8 : t.bytes ≤ 8 := by rw [bytes_size]; exact (size_le _).1
  have h1 := wrote_word h8 h
  have h2 : zx t.bytes x = zx t.bytes (BitVec.ofInt 64 v) := hr.zx_eq h8
  by_cases hb : t = .bool
  · subst hb
    have hv' : v = 0 ∨ v = 1 := by
      unfold InRange at hv
      have e1 : CTy.minVal .bool = 0 := by decide
      have e2 : CTy.maxVal .bool = 1 := by decide
      rw [e1, e2] at hv; omega
    have hlt := word_lt ⟨M.addr, s.m⟩ 1 a
    show (((Machine.mk M.addr s.m).word a 1 : Nat) : Int) = v
    have h1 : BitVec.ofNat 64 ((Machine.mk M.addr s.m).word a 1) = zx 1 (BitVec.ofInt 64 v) := h1.trans h2
    have h3 := congrArg BitVec.toNat h1
    rw [BitVec.toNat_ofNat, Nat.mod_eq_of_lt (by omega)] at h3
    rw [h3]
    rcases hv' with rfl | rfl <;> rfl
  · have h3 := int_word ⟨M.addr, s.m⟩ t a
    rw [h1, h2] at h3
    have hd := zx_dvd h8 h3
    have hr1 := int_range ⟨M.addr, s.m⟩ t a hb
    have hw : 8 * t.bytes = t.width := by cases t <;> first | rfl | exact absurd rfl hb
    rw [hw] at hd
    have := conv_eq_of_congr t _ _ hb hd
    rwa [conv_id _ _ hr1, conv_id _ _ hv] at this

theorem wrote_int {σ : Store} {a x : Word} {s : St} {t : CTy} {v : Int} (hv : InRange t v) (h : Wrote E M σ a t.bytes x s) (hr : Reps (ity t) v x) :
    (Machine.mk M.addr s.m).int t a = v :=
  wrote_low hv h (by have := hr.low; rwa [← bytes_size] at this)

end
end Slimcc.AGen
