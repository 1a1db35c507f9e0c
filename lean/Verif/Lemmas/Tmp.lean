import Verif.Lemmas.Mach
/-! Temporaries: what is pushed is popped. -/
set_option autoImplicit false
namespace Slimcc
open Slimcc.Spec Slimcc.Spec.CTy Slimcc.Ty Slimcc.X86 Slimcc.Gen

section
variable {E : Env} {P : List Line}

theorem setR_same (s : St) (r : Reg) (v : Word) : (s.setR r v).r r = v := by simp [St.setR]
theorem setR_other (s : St) (r q : Reg) (v : Word) (h : q ≠ r) : (s.setR r v).r q = s.r q := by simp [St.setR, h]

theorem ea_loc (hok : E.Ok) {x : Nat} (hx : E.dom x) (s : St) (hbp : s.r .bp = E.bp) : ea E.sym s (E.loc x) = E.addr x := by
  unfold Env.addr
  rcases hok.direct x hx with ⟨o, h⟩ | ⟨g, h⟩
  · simp only [h, ea, hbp]
  · simp only [h, ea]

theorem ea_slot (k : Nat) (s : St) (hbp : s.r .bp = E.bp) : ea E.sym s (slotMem E.stk k) = E.slot k := by
  unfold slotMem Env.slot; simp only [ea, hbp]

theorem rsz_cases (b : Bool) : rsz b = 4 ∨ rsz b = 8 := by cases b <;> simp [rsz]
theorem rsz_le (b : Bool) : rsz b ≤ 8 := by cases b <;> simp [rsz]

/-- The value `w` is in the temporary. -/
def Saved (E : Env) (l : TLoc) (sz : Nat) (w : Word) (s : St) : Prop :=
  match l with
  | .reg i => s.r (.tmp i) = zx sz w
  | .stk k => rd s.m (E.slot k) sz = zx sz w

theorem put_rsz (b : Bool) (old new : Word) : put (rsz b) old new = zx (rsz b) new := put_of_rop _ _ _ (rsz_cases b)

theorem popIn_run (l : TLoc) (b : Bool) (w : Word) (s : St) (hbp : s.r .bp = E.bp) (h : Saved E l (rsz b) w s) :
    ∃ s', execs E.sym (popIn E.stk b l) s = some s' ∧ s'.r (popReg l) = zx (rsz b) w ∧ s'.m = s.m ∧
      (∀ r, r ≠ popReg l → s'.r r = s.r r) := by
  cases l with
  | reg i => exact ⟨s, rfl, h, rfl, fun _ _ => rfl⟩
  | stk k =>
    refine ⟨_, rfl, ?_, rfl, fun r hr => setR_other _ _ _ _ hr⟩
    rw [popReg, setR_same, put_rsz]
    simp only [X86.get, ea_slot k s hbp, zx_rd _ _ _ (rsz_le b)]
    exact h

theorem popTo_run (l : TLoc) (b : Bool) (dst : Reg) (w : Word) (s : St) (hbp : s.r .bp = E.bp) (h : Saved E l (rsz b) w s) :
    ∃ s', execs E.sym (popTo E.stk b dst l) s = some s' ∧ s'.r dst = zx (rsz b) w ∧ s'.m = s.m ∧
      (∀ r, r ≠ dst → s'.r r = s.r r) := by
  cases l with
  | reg i =>
    refine ⟨_, rfl, ?_, rfl, fun r hr => setR_other _ _ _ _ hr⟩
    rw [setR_same, put_rsz]
    simp only [X86.get]
    rw [show s.r (.tmp i) = zx (rsz b) w from h, zx_zx, zx_zx]
  | stk k =>
    refine ⟨_, rfl, ?_, rfl, fun r hr => setR_other _ _ _ _ hr⟩
    rw [setR_same, put_rsz]
    simp only [X86.get, ea_slot k s hbp, zx_rd _ _ _ (rsz_le b)]
    exact h

/-- Memory that differs outside the variables holds the same values. -/
theorem rel_congr {σ : Store} {m m' : Mem} (h : Rel E σ m)
    (he : ∀ a x, E.dom x → InBlk (E.addr x) (E.size x) a → m' a = m a) : Rel E σ m' := by
  intro x hx i hi
  rw [he _ x hx (inBlk_add _ _ _ hi (E.size_le x)), h x hx i hi]

/-- A store to a variable. -/
theorem rel_set (hok : E.Ok) {σ : Store} {m : Mem} (h : Rel E σ m) {x : Nat} (hx : E.dom x) (v : Int) (w : Word)
    (hw : Low (E.size x) v w) : Rel E (σ.set x v) (wr m (E.addr x) (E.size x) w) := by
  rw [rel_iff] at *
  intro y hy
  by_cases e : y = x
  · subst e
    rw [rd_wr_same _ _ _ _ (E.size_le y), hw.zx_eq (E.size_le y)]
    simp [Store.set]
  · rw [rd_wr_disj _ _ _ _ _ _ (E.size_le y) (hok.vars x y hx hy (Ne.symm e)), h y hy]
    simp [Store.set, e]

theorem eff_var (hok : E.Ok) {x : Nat} (hx : E.dom x) (s s' : St) (w : Word) (hm : s'.m = wr s.m (E.addr x) (E.size x) w)
    (hr : ∀ r, r = .bp ∨ (∃ i, r = .tmp i) ∨ r = .sp → s'.r r = s.r r) : Eff E 0 0 s s' := by
  refine ⟨hr _ (Or.inl rfl), hr _ (Or.inr (Or.inr rfl)), fun i _ _ => hr _ (Or.inr (Or.inl ⟨i, rfl⟩)), fun a h1 h2 => ?_⟩
  rw [hm, wr_other _ _ _ _ _ (h1 x hx)]

theorem eff_regs {s s' : St} (gp : Nat) (hm : s'.m = s.m)
    (hr : ∀ r, r = .bp ∨ (∃ i, gp ≤ i ∧ r = .tmp i) ∨ r = .sp → s'.r r = s.r r) : Eff E gp 0 s s' :=
  ⟨hr _ (Or.inl rfl), hr _ (Or.inr (Or.inr rfl)), fun i hi _ => hr _ (Or.inr (Or.inl ⟨i, hi, rfl⟩)), fun a _ _ => by rw [hm]⟩

theorem tmp_gp (push : TLoc → List Ins) (body : G) (pop : TLoc → List Ins) (c : Nat) :
    (body c).1.gp ≤ (tmp push body pop c).1.gp ∧ (body c).1.st ≤ (tmp push body pop c).1.st := by
  unfold tmp; exact ⟨Nat.le_add_right _ _, Nat.le_add_right _ _⟩

/-- The register used for the popped value is below the depth of the whole. -/
theorem popReg_lt (push : TLoc → List Ins) (body : G) (pop : TLoc → List Ins) (c : Nat) :
    ∃ i, popReg (slot (body c).1.gp (body c).1.st) = .tmp i ∧ i < (tmp push body pop c).1.gp := by
  unfold tmp slot
  dsimp only
  split
  · exact ⟨_, rfl, Nat.lt_succ_self _⟩
  · rename_i h; unfold GP_SLOTS at h; exact ⟨0, rfl, by dsimp only; omega⟩

/-- Push, evaluate something else, pop; the push changes no memory but the slots. -/
theorem does_tmp_mem (hok : E.Ok) (src : Reg) (b : Bool) (body : G) (pop : TLoc → List Ins) (c : Nat) (s : St) (Q R : St → Prop)
    (hbp : s.r .bp = E.bp) (hK : (tmp (pushIns E.stk b src) body pop c).1.st ≤ E.K)
    (hbody : ∀ s1, s1.r .bp = E.bp → s1.r .ax = s.r .ax → s1.r .cx = s.r .cx → (∀ σ, Rel E σ s.m → Rel E σ s1.m) →
      (∀ a, E.Outside E.K a → s1.m a = s.m a) → Does E P (body c).1 s1 Q)
    (hpop : ∀ s2 l, l = slot (body c).1.gp (body c).1.st → s2.r .bp = E.bp → Saved E l (rsz b) (s.r src) s2 → Q s2 →
      ∃ s3, execs E.sym (pop l) s2 = some s3 ∧
        Eff E (tmp (pushIns E.stk b src) body pop c).1.gp 0 s2 s3 ∧ R s3) :
    Does E P (tmp (pushIns E.stk b src) body pop c).1 s R := by
  -- the state after the push
  have hpush : ∃ s1, execs E.sym (pushIns E.stk b src (slot (body c).1.gp (body c).1.st)) s = some s1 ∧
      s1.r .bp = E.bp ∧ s1.r .ax = s.r .ax ∧ s1.r .cx = s.r .cx ∧ (∀ σ, Rel E σ s.m → Rel E σ s1.m) ∧
      Eff E (tmp (pushIns E.stk b src) body pop c).1.gp (tmp (pushIns E.stk b src) body pop c).1.st s s1 ∧
      Saved E (slot (body c).1.gp (body c).1.st) (rsz b) (s.r src) s1 := by
    unfold tmp at hK ⊢
    unfold slot at hK ⊢
    dsimp only at hK ⊢
    by_cases h : (body c).1.gp < GP_SLOTS
    · simp only [if_pos h] at hK ⊢
      refine ⟨_, rfl, ?_, ?_, ?_, fun σ hσ => hσ, ⟨?_, ?_, fun i hi _ => ?_, fun _ _ _ => rfl⟩, ?_⟩
      · rw [setR_other _ _ _ _ (by simp), hbp]
      · rw [setR_other _ _ _ _ (by simp)]
      · rw [setR_other _ _ _ _ (by simp)]
      · rw [setR_other _ _ _ _ (by simp)]
      · rw [setR_other _ _ _ _ (by simp)]
      · rw [setR_other]; intro e; injection e; omega
      · show (St.setR _ _ _).r _ = _
        rw [setR_same, put_rsz]; simp only [X86.get, zx_zx]
    · simp only [if_neg h] at hK ⊢
      have hea := ea_slot (E := E) (body c).1.st s hbp
      refine ⟨_, rfl, hbp, rfl, rfl, fun σ hσ => ?_, ⟨rfl, rfl, fun i hi _ => rfl, fun a h1 h2 => ?_⟩, ?_⟩
      · refine rel_congr hσ fun a x hx ha => ?_
        dsimp only
        rw [hea]
        exact wr_other _ _ _ _ _ fun hc => hok.slots x _ hx (by omega : (body c).1.st < E.K) a ⟨ha, Nat.lt_of_lt_of_le hc (rsz_le b)⟩
      · dsimp only
        rw [hea]
        exact wr_other _ _ _ _ _ fun hc => h2 (body c).1.st (by omega) (Nat.lt_of_lt_of_le hc (rsz_le b))
      · unfold Saved
        dsimp only
        rw [hea, rd_wr_same _ _ _ _ (rsz_le b)]
        simp only [X86.get, zx_zx]
  obtain ⟨s1, p1, p2, p3, p4, p5, p6, p7⟩ := hpush
  intro pc hc
  have hg := tmp_gp (pushIns E.stk b src) body pop c
  have hcode : (tmp (pushIns E.stk b src) body pop c).1.code =
      (pushIns E.stk b src (slot (body c).1.gp (body c).1.st)).map .ins ++ (body c).1.code ++
        (pop (slot (body c).1.gp (body c).1.st)).map .ins := rfl
  rw [hcode] at hc
  rw [codeAt_append, codeAt_append] at hc
  obtain ⟨⟨c1, c2⟩, c3⟩ := hc
  have r1 := runs_execs P E.sym _ _ _ p1 pc c1
  rw [List.length_map] at c2
  obtain ⟨s2, r2, e2, q2⟩ := hbody s1 p2 p3 p4 p5 (fun a ha => p6.mem a ha.1 fun k hk => ha.2 k (by omega)) _ c2
  have hbp2 : s2.r .bp = E.bp := e2.bp.trans p2
  have hsv : Saved E (slot (body c).1.gp (body c).1.st) (rsz b) (s.r src) s2 := by
    have hK' : slot (body c).1.gp (body c).1.st = .stk (body c).1.st → (body c).1.st < E.K := by
      intro e
      unfold tmp at hK
      dsimp only at hK
      rw [e] at hK
      dsimp only at hK
      omega
    have hR' : ∀ i, slot (body c).1.gp (body c).1.st = .reg i → i = (body c).1.gp ∧ i < GP_SLOTS := by
      intro i e; unfold slot at e; split at e
      · injection e with e; subst e; exact ⟨rfl, by assumption⟩
      · cases e
    have hS' : ∀ k, slot (body c).1.gp (body c).1.st = .stk k → k = (body c).1.st := by
      intro i e; unfold slot at e; split at e
      · cases e
      · injection e with e; exact e.symm
    revert p7 hK' hR' hS'
    generalize slot (body c).1.gp (body c).1.st = l
    intro hsv hK' hR' hS'
    cases l with
    | reg i =>
      show s2.r _ = _
      have hsv : s1.r (.tmp i) = _ := hsv
      rw [e2.regs i (by rw [(hR' i rfl).1]; exact Nat.le_refl _) (hR' i rfl).2, hsv]
    | stk k =>
      have := hS' k rfl
      subst this
      show rd s2.m _ _ = _
      have hsv : rd s1.m (E.slot (body c).1.st) (rsz b) = _ := hsv
      have hk := hK' rfl
      rw [← hsv]
      refine rd_congr _ _ _ _ (rsz_le b) fun a ha => e2.mem a (fun x hx hax => ?_) fun k hk' hak => ?_
      · exact hok.slots x _ hx hk a ⟨hax, Nat.lt_of_lt_of_le ha (rsz_le b)⟩
      · exact slots_disj E hok k (body c).1.st (by omega) hk (by omega) a ⟨hak, Nat.lt_of_lt_of_le ha (rsz_le b)⟩
  obtain ⟨s3, x3, e3, q3⟩ := hpop s2 _ rfl hbp2 hsv q2
  rw [List.length_append, List.length_map, ← Nat.add_assoc] at c3
  have r3 := runs_execs P E.sym _ _ _ x3 _ c3
  refine ⟨s3, ?_, ?_, q3⟩
  · rw [hcode, List.length_append, List.length_append, List.length_map, List.length_map, ← Nat.add_assoc, ← Nat.add_assoc]
    exact (r1.trans r2).trans r3
  · exact (p6.trans (e2.mono hg.1 hg.2)).trans (e3.mono (Nat.le_refl _) (Nat.zero_le _))

/-- Push, evaluate something else, pop. -/
theorem does_tmp (hok : E.Ok) (src : Reg) (b : Bool) (body : G) (pop : TLoc → List Ins) (c : Nat) (s : St) (Q R : St → Prop)
    (hbp : s.r .bp = E.bp) (hK : (tmp (pushIns E.stk b src) body pop c).1.st ≤ E.K)
    (hbody : ∀ s1, s1.r .bp = E.bp → s1.r .ax = s.r .ax → s1.r .cx = s.r .cx → (∀ σ, Rel E σ s.m → Rel E σ s1.m) →
      Does E P (body c).1 s1 Q)
    (hpop : ∀ s2 l, l = slot (body c).1.gp (body c).1.st → s2.r .bp = E.bp → Saved E l (rsz b) (s.r src) s2 → Q s2 →
      ∃ s3, execs E.sym (pop l) s2 = some s3 ∧
        Eff E (tmp (pushIns E.stk b src) body pop c).1.gp 0 s2 s3 ∧ R s3) :
    Does E P (tmp (pushIns E.stk b src) body pop c).1 s R :=
  does_tmp_mem hok src b body pop c s Q R hbp hK (fun s1 h1 h2 h3 h4 _ => hbody s1 h1 h2 h3 h4) hpop

end
end Slimcc
