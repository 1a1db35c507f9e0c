import Verif.Model.StructSet
import Verif.Lemmas.MemCopy
import Verif.Props.C60
/-!
C77: assignment of structures.

`compileSetS` and `compileSetSVoid` with the copies after them (Model/StructSet) are the code of `l = r` as an
expression and as a statement; the other notions are those of C60, and `vexecs` executes a sequence without
labels on the processor with %xmm0.
-/
set_option autoImplicit false
namespace Slimcc.Props
open Slimcc Slimcc.Spec Slimcc.Spec.CTy Slimcc.Ty Slimcc.X86 Slimcc.Gen Slimcc.Addr Slimcc.AGen Slimcc.MemCopy Slimcc.MemL

private theorem copyOps_run (sym : Nat → Word) (src dst : Nat → MemOp) (sz : Nat) (hsz : sz < 2 ^ 63) (m0 : Mem) (S D : Word)
    (hd : Disj S sz D sz ∨ S = D) (r0 : Reg → Word)
    (hs : ∀ (s : St) (i : Nat), (∀ q, q ≠ .dx → s.r q = r0 q) → ea sym s (src i) = S + BitVec.ofNat 64 i)
    (ht : ∀ (s : St) (i : Nat), (∀ q, q ≠ .dx → s.r q = r0 q) → ea sym s (dst i) = D + BitVec.ofNat 64 i) :
    ∀ (i : Nat), i ≤ sz → ∀ (v : VSt), Done m0 S D i v.s.m → (∀ q, q ≠ .dx → v.s.r q = r0 q) →
    ∃ v', vexecs sym (copyOps src dst sz i) v = some v' ∧ Done m0 S D sz v'.s.m ∧ (∀ q, q ≠ .dx → v'.s.r q = r0 q) := by
  intro i hi
  induction i using copyOps.induct (sz := sz) with
  | case1 i h1 h2 ih =>
    intro v hm hr
    rw [copyOps, if_pos h1, if_pos h2]
    obtain ⟨v1, e1, e2, e3⟩ := x_move sym (src i) (dst i) v (S + BitVec.ofNat 64 i) (D + BitVec.ofNat 64 i)
      (hs _ _ hr) (ht _ _ hr) (copyOps src dst sz (i + 16))
    rw [e1]
    exact ih (by omega) v1 (by rw [e2]; exact done_step hd (by omega) hsz hm) (fun q hq => (e3 q).trans (hr q hq))
  | case2 i h1 h2 ih =>
    intro v hm hr
    have hp := p2_cases (sz - i) (by omega)
    rw [copyOps, if_pos h1, if_neg h2]
    obtain ⟨v1, e1, e2, e3⟩ := gp_move sym (p2 (sz - i)) hp.1 (src i) (dst i) v (S + BitVec.ofNat 64 i) (D + BitVec.ofNat 64 i)
      (hs _ _ hr) (fun d => ht _ _ fun q hq => (setR_other _ _ _ _ hq).trans (hr q hq)) (copyOps src dst sz (i + p2 (sz - i)))
    rw [e1]
    exact ih (by omega) v1 (by rw [e2]; exact done_step hd (by omega) hsz hm) (fun q hq => (e3 q hq).trans (hr q hq))
  | case3 i h1 =>
    intro v hm hr
    rw [copyOps, if_neg h1]
    refine ⟨v, rfl, ?_, hr⟩
    rw [show sz = i by omega]; exact hm

section
variable (C : Cfg) (P : ODecls) (E : Env) (O : Objects)

private theorem setupS {addr : Nat → Word} {Pg : List Line} {σ : Store} {s : St} (hC : C.Ok) (h : Started P E O addr Pg σ s) :
    Setup C P E Pg ⟨addr, s.m⟩ O ∧ Here E ⟨addr, s.m⟩ σ s :=
  ⟨⟨hC, h.env, h.labels, h.ints, h.objs⟩, h.store, h.bp, h.rel, fun _ _ => rfl⟩

/-- What the copy leaves: the bytes of the source are those of the object, and what is neither the object, a
variable nor a temporary is as before. -/
def Copied (σ' : Store) (a b : Word) (n : Nat) (s s' : St) : Prop :=
  (∀ k, k < n → s'.m (a + BitVec.ofNat 64 k) = s.m (b + BitVec.ofNat 64 k)) ∧ KeptBut E σ' a n s s'

private theorem finish {addr : Nat → Word} {σ' : Store} {s s1 : St} {a b : Word} {sz : Nat} (src dst : Nat → MemOp) (hsz : sz < 2 ^ 63)
    (h : Here E ⟨addr, s.m⟩ σ' s1) (hd : Disj b sz a sz ∨ b = a) (ha : E.Apart a sz) (hb : E.Apart b sz)
    (hs : ∀ (t : St) (i : Nat), (∀ q, q ≠ .dx → t.r q = s1.r q) → ea E.sym t (src i) = b + BitVec.ofNat 64 i)
    (ht : ∀ (t : St) (i : Nat), (∀ q, q ≠ .dx → t.r q = s1.r q) → ea E.sym t (dst i) = a + BitVec.ofNat 64 i) (x : Nat → BitVec 8) :
    ∃ v, vexecs E.sym (copyOps src dst sz 0) ⟨s1, x⟩ = some v ∧ Copied E σ' a b sz s v.s ∧ ∀ q, q ≠ .dx → v.s.r q = s1.r q := by
  have h0 : Done s1.m b a 0 s1.m := fun c => by rw [if_neg (by omega)]
  obtain ⟨v, e1, e2, e3⟩ := copyOps_run E.sym src dst sz hsz s1.m b a hd s1.r hs ht 0 (by omega) ⟨s1, x⟩ h0 (fun _ _ => rfl)
  refine ⟨v, e1, ⟨fun k hk => ?_, ?_, ?_, fun c hc hi => ?_⟩, e3⟩
  · have ek : (a + BitVec.ofNat 64 k - a).toNat = k := BFL.off_toNat _ _ (by omega)
    rw [e2, ek, if_pos hk]
    refine h.mem _ (hb _ ?_)
    show (b + BitVec.ofNat 64 k - b).toNat < sz
    rw [BFL.off_toNat _ _ (by omega)]; exact hk
  · intro y hy i hi
    rw [e2, if_neg]
    · exact h.rel y hy i hi
    · intro hin
      refine (ha _ hin).1 y hy ?_
      have := E.size_le y
      show (E.addr y + BitVec.ofNat 64 i - E.addr y).toNat < E.size y
      rw [BFL.off_toNat _ _ (by omega)]; exact hi
  · exact (e3 .bp (by simp)).trans h.bp
  · rw [e2, if_neg (show ¬ (c - a).toNat < sz from hi)]
    exact h.mem c hc

private theorem place_ops {l : LV} {t : OTy} (hC : C.Ok) (ht : l.ty P = some t) {d : Nat → MemOp} (h : placeA C P O.at_ (buildL C P l) = some d) :
    ∃ x o, d = (fun i => O.at_ x (o + (i : Nat))) ∧ evalVar C P true (buildL C P l) = some (x, o) := by
  have e : skipCastA P (buildL C P l) = buildL C P l := by
    rcases buildL_isPlace (C := C) hC l t ht with ⟨_, _, e⟩ | ⟨_, _, e⟩ | ⟨_, _, _, e⟩ <;> rw [e] <;> rfl
  unfold placeA at h
  rw [e, Option.map_eq_some_iff] at h
  obtain ⟨r, h1, h2⟩ := h
  exact ⟨r.1, r.2, h2.symm, evalVar_sub C P h1⟩

private theorem ea_place {Pg : List Line} {M : Machine} (S : Setup C P E Pg M O) {s : St} (hbp : s.r .bp = E.bp) (x : Nat) (o : Int) (i : Nat) :
    ea E.sym s (O.at_ x (o + i)) = M.addr x + BitVec.ofInt 64 o + BitVec.ofNat 64 i := by
  rw [ea_obj S hbp, BitVec.ofInt_add, BitVec.ofInt_natCast, BitVec.add_assoc]

private theorem ea_behind {s s1 : St} {r : Reg} {a : Word} (hr : r ≠ .dx) (h : s1.r r = a) (hs : ∀ q, q ≠ .dx → s.r q = s1.r q) (i : Nat) :
    ea E.sym s (behind r i) = a + BitVec.ofNat 64 i := by
  show s.r r + BitVec.ofInt 64 (i : Int) = _
  rw [hs r hr, h, BitVec.ofInt_natCast]

private theorem buildL_sizeof {l : LV} {t : OTy} (hC : C.Ok) (ht : l.ty P = some t) : P.sizeof (buildL C P l).ty = P.sizeof t := by
  rw [buildL_ty C P hC l t ht]

private theorem set_does {addr : Nat → Word} {Pg : List Line} {σ σ1 σ2 : Store} {s : St} {l r : LV} {k : Nat} {a b : Word}
    (S : Setup C P E Pg ⟨addr, s.m⟩ O) (H : Here E ⟨addr, s.m⟩ σ s) (hl : LOk C P E l (.struct k)) (hr : LOk C P E r (.struct k))
    (hf : l.Fine P ⟨addr, s.m⟩ E σ) (he : l.eval P ⟨addr, s.m⟩ σ = .ok (a, σ1)) (hg : r.Fine P ⟨addr, s.m⟩ E σ1)
    (hv : r.eval P ⟨addr, s.m⟩ σ1 = .ok (b, σ2)) (ha : E.Apart a (P.sizeof (.struct k))) (hb : E.Apart b (P.sizeof (.struct k)))
    (hd : Disj b (P.sizeof (.struct k)) a (P.sizeof (.struct k)) ∨ b = a) (hsz : P.sizeof (.struct k) < 2 ^ 31) (c : Nat)
    (hK : (setLines C P E.loc O.at_ E.stk (buildL C P l) (buildL C P r) c).1.st ≤ E.K) :
    Does E Pg (setLines C P E.loc O.at_ E.stk (buildL C P l) (buildL C P r) c).1 s fun s1 => ∀ x,
      ∃ v, vexecs E.sym (setCopy C P E.loc O.at_ E.stk (buildL C P l) (buildL C P r) c) ⟨s1, x⟩ = some v ∧
        Copied E σ2 a b (P.sizeof (.struct k)) s v.s ∧ v.s.r .ax = b := by
  have hr' : Gives E Pg ⟨addr, s.m⟩ (genExprA C P E.loc O.at_ E.stk (buildL C P r)) (r.eval P ⟨addr, s.m⟩) (r.Fine P ⟨addr, s.m⟩ E) (fun a x => x = a) := by
    intro σ t σ' a c h hf he hK
    exact val_gives S hr σ t σ' a c h ⟨hf, trivial⟩ he hK
  unfold setLines at hK ⊢
  unfold setCopy
  rw [buildL_sizeof C P S.hC hl.ty]
  cases hm : (if C.opt then placeA C P O.at_ (buildL C P l) else none) with
  | some d =>
    rw [hm] at hK
    dsimp only at hK ⊢
    have hm' : placeA C P O.at_ (buildL C P l) = some d := by
      split at hm
      · exact hm
      · cases hm
    obtain ⟨x, o, rfl, hx⟩ := place_ops C P O S.hC hl.ty hm'
    obtain ⟨e1, e2⟩ := place_at S.hC l _ hl.ty hl.wf hl.conv hx (S.sok H) hf he
    subst e2
    refine (hr' _ s σ2 b c H hg hv hK).imp fun s1 _ q xx => ?_
    obtain ⟨v, f1, f2, f3⟩ := finish E (behind .ax) _ (by omega) q.1 hd ha hb (fun t i ht => ea_behind E (by simp) q.2 ht i)
      (fun t i ht => by rw [ea_place C P E O S ((ht .bp (by simp)).trans q.1.bp), e1]) xx
    exact ⟨v, f1, f2, (f3 .ax (by simp)).trans q.2⟩
  | none =>
    rw [hm] at hK
    dsimp only at hK ⊢
    have hK' := seq_st_le hK
    refine does_seq _ _ c s _ _ (addr_gives S hl σ s σ1 a c H hf he hK'.1) fun s1 _ q1 => ?_
    refine does_tmp_mem S.hok .ax true _ _ _ s1 (fun s2 => Here E ⟨addr, s.m⟩ σ2 s2 ∧ s2.r .ax = b) _ q1.1.bp hK'.2 (fun s2 h1 _ _ h4 h5 => ?_) (fun s2 p hp h1 h2 h3 => ?_)
    · exact hr' σ1 s2 σ2 b _ ⟨q1.1.sok, h1, h4 _ q1.1.rel, fun c hc => (h5 c hc).trans (q1.1.mem c hc)⟩ hg hv (tmp_st_le hK'.2)
    · obtain ⟨i, hi, hlt⟩ := popReg_lt (pushIns E.stk true .ax) (genExprA C P E.loc O.at_ E.stk (buildL C P r)) (popIn E.stk true) (genAddrA C P E.loc O.at_ E.stk (buildL C P l) c).2
      rw [← hp] at hi ⊢
      obtain ⟨s3, x3, r3, m3, o3⟩ := popIn_run (E := E) p _ _ s2 h1 h2
      rw [hi] at r3 o3 ⊢
      rw [show rsz true = 8 from rfl, zx8, q1.2] at r3
      have hax : s3.r .ax = b := (o3 .ax (by simp)).trans h3.2
      refine ⟨s3, x3, ⟨o3 .bp (by simp), o3 .sp (by simp), fun j hj _ => o3 _ (by intro e; injection e; omega), fun _ _ _ => by rw [m3]⟩, fun xx => ?_⟩
      have H3 : Here E ⟨addr, s.m⟩ σ2 s3 := ⟨h3.1.sok, (o3 .bp (by simp)).trans h3.1.bp, by rw [m3]; exact h3.1.rel, fun c hc => by rw [m3]; exact h3.1.mem c hc⟩
      obtain ⟨v, f1, f2, f3⟩ := finish E (behind .ax) (behind (.tmp i)) (by omega) H3 hd ha hb (fun t i ht => ea_behind E (by simp) hax ht i)
        (fun t j ht => ea_behind E (by simp) r3 ht j) xx
      exact ⟨v, f1, f2, (f3 .ax (by simp)).trans hax⟩

/-- The code of `l = r` for structures gives the object `l` the bytes of `r` and changes nothing else; %rax is
left with the address of an object of that value. -/
theorem C77_assign (hC : C.Ok) (addr : Nat → Word) (Pg : List Line) (σ σ1 σ2 : Store) (s : St) (h : Started P E O addr Pg σ s)
    (l r : LV) (k : Nat) (ht : l.ty P = some (.struct k)) (hw : l.Wf) (hn : l.NoConv) (hu : Usable E C.opt l.exprs)
    (rt : r.ty P = some (.struct k)) (rw : r.Wf) (rn : r.NoConv) (ru : Usable E C.opt r.exprs) (hsz : P.sizeof (.struct k) < 2 ^ 31)
    (hf : l.Fine P ⟨addr, s.m⟩ E σ) (a : Word) (he : l.eval P ⟨addr, s.m⟩ σ = .ok (a, σ1)) (ha : E.Apart a (P.sizeof (.struct k)))
    (rf : r.Fine P ⟨addr, s.m⟩ E σ1) (b : Word) (hv : r.eval P ⟨addr, s.m⟩ σ1 = .ok (b, σ2)) (hb : E.Apart b (P.sizeof (.struct k)))
    (hd : Disj b (P.sizeof (.struct k)) a (P.sizeof (.struct k)) ∨ b = a) (pc c : Nat)
    (hK : (compileSetS C P E.loc O.at_ E.stk l r c).1.st ≤ E.K) (hc : CodeAt Pg pc (compileSetS C P E.loc O.at_ E.stk l r c).1.code) :
    ∃ s1, Runs E.sym Pg (pc, s) (pc + (compileSetS C P E.loc O.at_ E.stk l r c).1.code.length, s1) ∧ ∀ x,
      ∃ v, vexecs E.sym (compileSetSCopy C P E.loc O.at_ E.stk l r c) ⟨s1, x⟩ = some v ∧
        (∀ i, i < P.sizeof (.struct k) → v.s.m (a + BitVec.ofNat 64 i) = s.m (b + BitVec.ofNat 64 i)) ∧
        KeptBut E σ2 a (P.sizeof (.struct k)) s v.s ∧ v.s.r .ax = b := by
  obtain ⟨S, H⟩ := setupS C P E O hC h
  obtain ⟨s1, h1, _, h3⟩ := set_does C P E O S H ⟨ht, hw, hn, hu⟩ ⟨rt, rw, rn, ru⟩ hf he rf hv ha hb hd hsz c hK pc hc
  exact ⟨s1, h1, fun x => by obtain ⟨v, e1, e2, e3⟩ := h3 x; exact ⟨v, e1, e2.1, e2.2, e3⟩⟩

/-- The same for `l = r;` as a statement. -/
theorem C77_statement (hC : C.Ok) (addr : Nat → Word) (Pg : List Line) (σ σ1 σ2 : Store) (s : St) (h : Started P E O addr Pg σ s)
    (l r : LV) (k : Nat) (ht : l.ty P = some (.struct k)) (hw : l.Wf) (hn : l.NoConv) (hu : Usable E C.opt l.exprs)
    (rt : r.ty P = some (.struct k)) (rw' : r.Wf) (rn : r.NoConv) (ru : Usable E C.opt r.exprs) (hsz : P.sizeof (.struct k) < 2 ^ 31)
    (hf : l.Fine P ⟨addr, s.m⟩ E σ) (a : Word) (he : l.eval P ⟨addr, s.m⟩ σ = .ok (a, σ1)) (ha : E.Apart a (P.sizeof (.struct k)))
    (rf : r.Fine P ⟨addr, s.m⟩ E σ1) (b : Word) (hv : r.eval P ⟨addr, s.m⟩ σ1 = .ok (b, σ2)) (hb : E.Apart b (P.sizeof (.struct k)))
    (hd : Disj b (P.sizeof (.struct k)) a (P.sizeof (.struct k)) ∨ b = a) (pc c : Nat)
    (hK : (compileSetSVoid C P E.loc O.at_ E.stk l r c).1.st ≤ E.K) (hc : CodeAt Pg pc (compileSetSVoid C P E.loc O.at_ E.stk l r c).1.code) :
    ∃ s1, Runs E.sym Pg (pc, s) (pc + (compileSetSVoid C P E.loc O.at_ E.stk l r c).1.code.length, s1) ∧ ∀ x,
      ∃ v, vexecs E.sym (compileSetSVoidCopy C P E.loc O.at_ E.stk l r c) ⟨s1, x⟩ = some v ∧
        (∀ i, i < P.sizeof (.struct k) → v.s.m (a + BitVec.ofNat 64 i) = s.m (b + BitVec.ofNat 64 i)) ∧
        KeptBut E σ2 a (P.sizeof (.struct k)) s v.s := by
  obtain ⟨S, H⟩ := setupS C P E O hC h
  have hl : LOk C P E l (.struct k) := ⟨ht, hw, hn, hu⟩
  have hr : LOk C P E r (.struct k) := ⟨rt, rw', rn, ru⟩
  unfold compileSetSVoid setVoidLines at hK hc ⊢
  unfold compileSetSVoidCopy setVoidCopy
  rw [buildL_sizeof C P hC ht]
  cases hm : placeA C P O.at_ (buildL C P r) with
  | none =>
    rw [hm] at hK hc
    dsimp only at hK hc ⊢
    obtain ⟨s1, h1, _, h3⟩ := set_does C P E O S H hl hr hf he rf hv ha hb hd hsz c hK pc hc
    exact ⟨s1, h1, fun x => by obtain ⟨v, e1, e2, e3⟩ := h3 x; exact ⟨v, e1, e2.1, e2.2⟩⟩
  | some d =>
    obtain ⟨x, o, rfl, hx⟩ := place_ops C P O hC rt hm
    rw [hm] at hK hc
    dsimp only at hK hc ⊢
    cases hm' : placeA C P O.at_ (buildL C P l) with
    | some d' =>
      obtain ⟨x', o', rfl, hx'⟩ := place_ops C P O hC ht hm'
      obtain ⟨e1, e2⟩ := place_at hC l _ ht hw hn hx' (S.sok H) hf he
      subst e2
      obtain ⟨e3, e4⟩ := place_at hC r _ rt rw' rn hx (S.sok H) rf hv
      subst e4
      refine ⟨s, Runs.refl _ _ _, fun xx => ?_⟩
      obtain ⟨v, f1, f2, f3⟩ := finish E _ _ (by omega) H hd ha hb
        (fun t i ht => by rw [ea_place C P E O S ((ht .bp (by simp)).trans H.bp), e3])
        (fun t i ht => by rw [ea_place C P E O S ((ht .bp (by simp)).trans H.bp), e1]) xx
      exact ⟨v, f1, f2.1, f2.2⟩
    | none =>
      rw [hm'] at hK hc
      dsimp only at hK hc ⊢
      obtain ⟨s1, h1, _, q⟩ := addr_gives S hl σ s σ1 a c H hf he hK pc hc
      obtain ⟨e3, e4⟩ := place_at hC r _ rt rw' rn hx (S.sok q.1) rf hv
      subst e4
      refine ⟨s1, h1, fun xx => ?_⟩
      obtain ⟨v, f1, f2, f3⟩ := finish E _ (behind .ax) (by omega) q.1 hd ha hb
        (fun t i ht => by rw [ea_place C P E O S ((ht .bp (by simp)).trans q.1.bp), e3])
        (fun t i ht => ea_behind E (by simp) q.2 ht i) xx
      exact ⟨v, f1, f2.1, f2.2⟩

/-- The code defines no label twice. -/
theorem C77_labels (l r : LV) (c : Nat) :
    UniqueLabels (compileSetS C P E.loc O.at_ E.stk l r c).1.code ∧ UniqueLabels (compileSetSVoid C P E.loc O.at_ E.stk l r c).1.code := by
  have h : Fresh (setLines C P E.loc O.at_ E.stk (buildL C P l) (buildL C P r)) := by
    unfold setLines
    split
    · exact genA_fresh _ _ _ _ _ _ _ _
    · exact fresh_seq (genA_fresh _ _ _ _ _ _ _ _) (fresh_tmp (genA_fresh _ _ _ _ _ _ _ _))
  have h' : Fresh (setVoidLines C P E.loc O.at_ E.stk (buildL C P l) (buildL C P r)) := by
    unfold setVoidLines
    split
    · split
      · exact fresh_lines _ rfl
      · exact genA_fresh _ _ _ _ _ _ _ _
    · exact h
  exact ⟨unique_of_nodup _ (h c).2.1, unique_of_nodup _ (h' c).2.1⟩

end

/-! A case meeting the hypotheses, in the example of C60: `a[0] = a[z - 99]` with `z` 100, 24 bytes, as an
expression, and `a[z - 99] = a[0];`. -/

def ssFirst : LV := .deref (.add (.decay (.var 0)) (.expr (.num .int 0)))
theorem ssFirst_eval : ssFirst.eval acP acM exStore = .ok (0x7ffeff80, exStore) := rfl
theorem ssFirst_fine : ssFirst.Fine acP acM exEnv exStore := by
  refine ⟨⟨stays_some _ _ _ _ _ 0 _ rfl ssFirst_eval (by decide), trivial⟩, trivial, fun _ _ _ => trivial⟩
theorem ssNode_fine : acNode.Fine acP acM exEnv exStore := acNode_fine.2
theorem ssNode_usable (b : Bool) : Usable exEnv b acNode.exprs := by
  intro e he
  simp [acNode, LV.exprs, PE.exprs, IE.exprs] at he
  subst he
  exact ⟨by intro x hx; simp [Expr.vars] at hx; show x < 3; omega, fun _ => ⟨trivial, trivial, by simp [Expr.vars, Expr.assigned]⟩⟩
theorem ssFirst_usable (b : Bool) : Usable exEnv b ssFirst.exprs := by
  intro e he
  simp [ssFirst, LV.exprs, PE.exprs, IE.exprs] at he
  subst he
  exact ⟨by intro x hx; simp [Expr.vars] at hx, fun _ => trivial⟩
theorem ssDisj : Disj 0x7ffeff98 24 0x7ffeff80 24 ∧ Disj 0x7ffeff80 24 0x7ffeff98 24 := by
  constructor <;> · intro c h; unfold InBlk at h; bv_omega

example : ∃ s1, Runs exEnv.sym (compileSetS adC acP exEnv.loc acO.at_ 16 ssFirst acNode 0).1.code (0, acState)
      (0 + (compileSetS adC acP exEnv.loc acO.at_ 16 ssFirst acNode 0).1.code.length, s1) ∧ ∀ x,
      ∃ v, vexecs exEnv.sym (compileSetSCopy adC acP exEnv.loc acO.at_ 16 ssFirst acNode 0) ⟨s1, x⟩ = some v ∧
        (∀ i, i < 24 → v.s.m (0x7ffeff80 + BitVec.ofNat 64 i) = acMem (0x7ffeff98 + BitVec.ofNat 64 i)) ∧
        KeptBut exEnv exStore 0x7ffeff80 24 acState v.s ∧ v.s.r .ax = 0x7ffeff98 :=
  C77_assign adC acP exEnv acO adC_ok acAddr _ exStore exStore exStore acState (acStarted 0 _ (C77_labels adC acP exEnv acO ssFirst acNode 0).1)
    ssFirst acNode 0 rfl ⟨trivial, show Expr.Wf _ by decide⟩ ⟨trivial, trivial⟩ (ssFirst_usable _)
    rfl ⟨trivial, show Expr.Wf _ by decide⟩ ⟨trivial, trivial⟩ (ssNode_usable _) (by decide)
    ssFirst_fine _ ssFirst_eval (apart_of _ _ (by decide)) ssNode_fine _ acNode_eval (apart_of _ _ (by decide)) (.inl ssDisj.1) 0 0 (by decide)
    (fun i _ => by rw [Nat.zero_add])

example : ∃ s1, Runs exEnv.sym (compileSetSVoid adC acP exEnv.loc acO.at_ 16 acNode ssFirst 0).1.code (0, acState)
      (0 + (compileSetSVoid adC acP exEnv.loc acO.at_ 16 acNode ssFirst 0).1.code.length, s1) ∧ ∀ x,
      ∃ v, vexecs exEnv.sym (compileSetSVoidCopy adC acP exEnv.loc acO.at_ 16 acNode ssFirst 0) ⟨s1, x⟩ = some v ∧
        (∀ i, i < 24 → v.s.m (0x7ffeff98 + BitVec.ofNat 64 i) = acMem (0x7ffeff80 + BitVec.ofNat 64 i)) ∧
        KeptBut exEnv exStore 0x7ffeff98 24 acState v.s :=
  C77_statement adC acP exEnv acO adC_ok acAddr _ exStore exStore exStore acState (acStarted 0 _ (C77_labels adC acP exEnv acO acNode ssFirst 0).2)
    acNode ssFirst 0 rfl ⟨trivial, show Expr.Wf _ by decide⟩ ⟨trivial, trivial⟩ (ssNode_usable _)
    rfl ⟨trivial, show Expr.Wf _ by decide⟩ ⟨trivial, trivial⟩ (ssFirst_usable _) (by decide)
    ssNode_fine _ acNode_eval (apart_of _ _ (by decide)) ssFirst_fine _ ssFirst_eval (apart_of _ _ (by decide)) (.inl ssDisj.2) 0 0 (by decide)
    (fun i _ => by rw [Nat.zero_add])

end Slimcc.Props
