import Verif.Lemmas.FnEntry
import Verif.Props.C64
import Verif.Lemmas.AtomicSeg
/-! A call in the body of a function, up to the line after the call instruction. -/
set_option autoImplicit false
namespace Slimcc
open Slimcc.Spec Slimcc.Spec.CTy Slimcc.Ty Slimcc.X86 Slimcc.Gen Slimcc.Props

/-- What is known of calls nested at most `n` deep. -/
def Served (P : Prog) (I : Image) (lo hi D n : Nat) : Prop :=
  ∀ g vs σ v σ', Gives P n g vs σ v σ' → ∀ f, P.fn g = some f → ∀ c pc s, (I.code c)[pc]? = some (.call g) → pc + 1 < (I.code c).length →
    Calling P I lo hi f vs σ (n * D) s → ∃ k s', gsteps I k ((c, pc), s) = some ((c, pc + 1), s') ∧ Returned P I lo f vs.length v σ' s s'

/-- The program gets from one position of a function to another. -/
def GRuns (I : Image) (g : Nat) (a b : Nat × St) : Prop := ∃ k, gsteps I k ((g, a.1), a.2) = some ((g, b.1), b.2)

theorem GRuns.trans {I : Image} {g : Nat} {a b c : Nat × St} (h : GRuns I g a b) (h' : GRuns I g b c) : GRuns I g a c := by
  obtain ⟨j, hj⟩ := h
  obtain ⟨k, hk⟩ := h'
  exact ⟨j + k, by rw [gsteps_add, hj]; exact hk⟩

theorem GRuns.of {I : Image} {g : Nat} {a b : Nat × St} (h : Runs I.sym (I.code g) a b) : GRuns I g a b := by
  obtain ⟨k, hk⟩ := h
  exact ⟨k, gsteps_local k a b hk⟩

theorem evaluated_sok (hs : HostShift) (opt : Bool) {E : Env} {as : List Actual} {σ σ' : Store} {vs : List Int} (he : Evaluated E.Γ as σ σ' vs)
    (hw : ∀ a ∈ as, a.e.Wf) (hσ : StoreOk E.Γ σ) : StoreOk E.Γ σ' := by
  intro x
  by_cases h : ∃ a ∈ as, x ∈ a.e.assigned
  · obtain ⟨a, ha, hx⟩ := h
    obtain ⟨i, hi⟩ := List.getElem?_of_mem ha
    have hl : i < vs.length := by rw [he.len]; exact (List.getElem?_eq_some_iff.1 hi).1
    obtain ⟨w, σ1, h1, _, h3⟩ := he.each i a _ hi (List.getElem?_eq_getElem hl)
    rw [h3 x hx]
    exact ((build_impl (Γ := E.Γ) (nt := ty_int) (acc := 0) hs opt (by decide) a.e (hw a ha)).range (by decide) σ hσ h1).2 x
  · rw [he.rest x fun a ha hx => h ⟨a, ha, hx⟩]
    exact hσ x

section
variable {hs : HostShift} {opt : Bool} {P : Prog} {I : Image} {f : FnDef} {fr : Frame} {k : Nat} {S : Word} {lo hi : Nat}

theorem frameSize_mono (fr : Frame) {j k : Nat} (h : j ≤ k) : frameSize fr j ≤ frameSize fr k := by
  unfold frameSize CC.alignTo; omega

theorem ActOk.mono (A : ActOk hs opt P I f fr k S lo hi) {j : Nat} (h : j ≤ k) : ActOk hs opt P I f fr j S lo hi :=
  ⟨A.rules, A.frame, A.apart, A.stack, by have := A.room; have := frameSize_mono fr h; omega, A.inside, A.top⟩

/-- The stack pointer in the body. -/
def bodySp (fr : Frame) (k : Nat) (S : Word) : Word := S - 16#64 - BitVec.ofNat 64 (frameSize fr k)

theorem bodySp_nat (A : ActOk hs opt P I f fr k S lo hi) : (bodySp fr k S).toNat + 16 + frameSize fr k = S.toNat := by
  have := A.room
  have := S.isLt
  unfold bodySp
  rw [BitVec.toNat_sub, BitVec.toNat_sub, BitVec.toNat_ofNat]
  simp
  omega

theorem spAt_nat (A : ActOk hs opt P I f fr k S lo hi) (c : CallS) (h : lo + 16 + frameSize fr k + argBytes 0 c.args.length ≤ S.toNat) :
    (spAt (siteOf c) (bodySp fr k S)).toNat + argBytes 0 c.args.length = (bodySp fr k S).toNat := by
  have h1 := bodySp_nat A
  have := S.isLt
  have : hidden (siteOf c) = 0 := rfl
  unfold spAt
  rw [this]
  show (_ - BitVec.ofNat 64 (argBytes 0 c.args.length)).toNat + _ = _
  rw [BitVec.toNat_sub, BitVec.toNat_ofNat]
  omega

theorem argSize_pos {c : CallS} {i : Nat} (h : HasTemp hs opt P f fr c i) : 0 < argSize P.Γ c.args i := by
  obtain ⟨_, a, ha, _⟩ := h
  unfold argSize
  rw [ha]
  exact bytes_pos _

theorem room_ok (A : ActOk hs opt P I f fr k S lo hi) {j : Nat} (hj : j ≤ k) (c : CallS) (h : lo + 16 + frameSize fr k + argBytes 0 c.args.length ≤ S.toNat)
    (hT : TempsOk hs opt P f fr c) :
    Room (actEnv P I f fr j S) c.args 0 (Spilled hs opt (actEnv P I f fr j S) c.args 0) (fr.temp c.site) (spAt (siteOf c) (bodySp fr k S)) := by
  have hb := bodySp_nat A
  have hsp := spAt_nat A c h
  have fs := frameSize_ge fr k
  have A1 := A.mono hj
  have ins := A.inside
  have top := A.top
  have hS := S.isLt
  have hL : ∀ i, Spilled hs opt (actEnv P I f fr j S) c.args 0 i → HasTemp hs opt P f fr c i := fun i hi => ⟨by have := hi.1; omega, hi.2⟩
  have hblk : ∀ a, InBlk (spAt (siteOf c) (bodySp fr k S)) (argBytes 0 c.args.length) a ↔
      (spAt (siteOf c) (bodySp fr k S)).toNat ≤ a.toNat ∧ a.toNat < (spAt (siteOf c) (bodySp fr k S)).toNat + argBytes 0 c.args.length := fun a => inBlk_nat (by omega) a
  have htmp : ∀ i, HasTemp hs opt P f fr c i → ∀ a, InBlk ((actEnv P I f fr j S).bp + BitVec.ofInt 64 (fr.temp c.site i)) (argSize P.Γ c.args i) a ↔ _ :=
    fun i hi a => blk_frame A1 (.inl (hT.inside i hi)) (argSize_pos hi) a
  refine ⟨by omega, fun x hx a ha => ?_, fun q hq a ha => ?_, fun i x hi hx a ha => ?_, fun i q hi hq a ha => ?_, fun i hi a ha => ?_, fun i i' hi hi' hne a ha => ?_⟩
  · have h1 := (hblk a).1 ha.1
    rcases hx with hx | hx
    · rw [addr_glob A1 hx] at ha
      have h2 := A.stack x a hx ha.2
      omega
    · obtain ⟨o, h2, h3⟩ := addr_local A1 hx
      rw [h2] at ha
      have h4 := (blk_local A1 h3 a).1 ha.2
      have h5 := offset_in A1 h3
      omega
  · have h1 := (hblk a).1 ha.1
    have hq : q < j := hq
    have h2 := (blk_slot A1 hq a).1 ha.2
    omega
  · have h1 := (htmp i (hL i hi) a).1 ha.1
    have h0 := hT.inside i (hL i hi)
    rcases hx with hx | hx
    · rw [addr_glob A1 hx] at ha
      have h2 := A.stack x a hx ha.2
      omega
    · obtain ⟨o, h2, h3⟩ := addr_local A1 hx
      rw [h2] at ha
      have h4 := (blk_local A1 h3 a).1 ha.2
      have h5 := offset_in A1 h3
      rcases h3 with ⟨h3, rfl⟩ | ⟨n, h6, _, rfl⟩
      · have h7 := hT.vars i x (hL i hi) h3
        unfold OfsApart at h7
        omega
      · omega
  · have h1 := (htmp i (hL i hi) a).1 ha.1
    have h0 := hT.inside i (hL i hi)
    have hq : q < j := hq
    have h2 := (blk_slot A1 hq a).1 ha.2
    omega
  · have h1 := (htmp i (hL i hi) a).1 ha.1
    have h0 := hT.inside i (hL i hi)
    have h2 := (hblk a).1 ha.2
    omega
  · have h1 := (htmp i (hL i hi) a).1 ha.1
    have h2 := (htmp i' (hL i' hi') a).1 ha.2
    have h3 := hT.apart i i' (hL i hi) (hL i' hi') hne
    unfold OfsApart at h3
    omega

/-- The state after the call instruction. -/
structure CallDone (P : Prog) (I : Image) (f : FnDef) (fr : Frame) (k j : Nat) (S : Word) (lo : Nat) (c : CallS) (rty : CTy) (v : Option Int) (σ : Store) (s s' : St) : Prop where
  sp : s'.r .sp = spAt (siteOf c) (bodySp fr k S)
  bp : s'.r .bp = S - 16#64
  sok : StoreOk P.Γ σ
  rel : Rel (actEnv P I f fr j S) σ s'.m
  result : ∀ w, v = some w → InRange rty w ∧ InReg rty w (s'.r .ax)
  mem : ∀ a, (actEnv P I f fr j S).Outside j a → ¬ (lo ≤ a.toNat ∧ a.toNat < (bodySp fr k S).toNat) →
    ¬ (S.toNat - 16 - fr.stk ≤ a.toNat ∧ a.toNat < S.toNat - 16) → s'.m a = s.m a

theorem call_mid (A : ActOk hs opt P I f fr k S lo hi) (hal : S.toNat % 16 = 0) {D n : Nat} (hn : lo + (n + 1) * D ≤ S.toNat) (hV : Served P I lo hi D n)
    {g : Nat} (hu : UniqueLabels (I.code g)) (c : CallS) (hR : CallRules P c) (hT : TempsOk hs opt P f fr c)
    (hD : 16 + frameSize fr k + argBytes 0 c.args.length ≤ D)
    (hok : ∀ a ∈ c.args, a.e.Wf ∧ (∀ x ∈ a.e.vars, (actEnv P I f fr k S).dom x) ∧ (opt = true → a.e.Sequenced))
    {σ σ1 σ2 : Store} {vs : List Int} {v : Option Int} {s : St} (hσ : StoreOk P.Γ σ) (hbp : s.r .bp = S - 16#64) (hsp : s.r .sp = bodySp fr k S)
    (he : cevals P.Γ c.args σ = .ok (vs, σ1)) (hO : Gives P n c.fn vs σ1 v σ2) (rt : Option ITy) (lab pc : Nat) {j : Nat}
    (hj : j = (funcall hs opt P.Γ (fnLoc P.Γ P.glob f fr) fr.stk (siteOf c) (fr.temp c.site) rt lab).1.before.st) (hjk : j ≤ k)
    (hm : Rel (actEnv P I f fr j S) σ s.m)
    (hc : CodeAt (I.code g) pc (callCode hs opt P.Γ (fnLoc P.Γ P.glob f fr) fr.stk fr.temp c rt lab).1.code)
    (hlen : ∀ p h, (I.code g)[p]? = some (.call h) → p + 1 < (I.code g).length) :
    ∃ h s', P.fn c.fn = some h ∧
      GRuns I g (pc, s) (pc + (funcall hs opt P.Γ (fnLoc P.Γ P.glob f fr) fr.stk (siteOf c) (fr.temp c.site) rt lab).1.before.code.length + 1, s') ∧
      CallDone P I f fr k j S lo c h.rty v σ2 s s' := by
  obtain ⟨h, hf, hpar⟩ := hR.fn
  have hfs : lo + 16 + frameSize fr k + argBytes 0 c.args.length ≤ S.toNat := by
    rw [Nat.succ_mul] at hn
    omega
  have A1 := A.mono hjk
  have hwf : ∀ a ∈ c.args, a.e.Wf := fun a ha => (hok a ha).1
  have hev : Evaluated (actEnv P I f fr j S).Γ (siteOf c).args σ σ1 vs := C64_order (E := actEnv P I f fr j S) c.args σ σ1 vs hR.ind hwf hσ he
  have hC : Callable hs opt (actEnv P I f fr j S) (I.code g) (siteOf c) σ (fr.temp c.site) (s.r .sp) :=
    ⟨act_ok A1, hu, hσ, hR.ind, hwf, fun a ha => (hok a ha).2.1, fun ho a ha => (hok a ha).2.2 ho, by rw [hsp]; exact room_ok A hjk c hfs hT⟩
  have hcode : (callCode hs opt P.Γ (fnLoc P.Γ P.glob f fr) fr.stk fr.temp c rt lab).1.code =
      (funcall hs opt P.Γ (fnLoc P.Γ P.glob f fr) fr.stk (siteOf c) (fr.temp c.site) rt lab).1.before.code ++
        .call c.fn :: (funcall hs opt P.Γ (fnLoc P.Γ P.glob f fr) fr.stk (siteOf c) (fr.temp c.site) rt lab).1.after.map .ins := rfl
  rw [hcode] at hc
  rw [codeAt_append] at hc
  obtain ⟨c1, c2⟩ := hc
  obtain ⟨c2, -⟩ := (codeAt_cons _ _ _ _).1 c2
  obtain ⟨-, s1, r1, H, m1⟩ := C64_direct hs opt (actEnv P I f fr j S) (I.code g) (siteOf c) σ σ1 vs (fr.temp c.site) rt s pc lab rfl hC hev hbp hm (Nat.le_of_eq hj.symm) c1
  rw [hsp] at H m1
  have r1 : Runs I.sym (I.code g) (pc, s) (pc + (funcall hs opt P.Γ (fnLoc P.Γ P.glob f fr) fr.stk (siteOf c) (fr.temp c.site) rt lab).1.before.code.length, s1) := r1
  generalize (funcall hs opt P.Γ (fnLoc P.Γ P.glob f fr) fr.stk (siteOf c) (fr.temp c.site) rt lab).1 = p at *
  have hspn := spAt_nat A c hfs
  have hbn := bodySp_nat A
  have hvl : vs.length = c.args.length := hev.len
  have hpl : c.args.length = h.params.length := by have := congrArg List.length hpar; simpa using this
  have sok1 : StoreOk P.Γ σ1 := evaluated_sok hs opt hev hwf hσ
  have hcall : Calling P I lo hi h vs σ1 (n * D) s1 := by
    refine ⟨?_, ?_, ?_, sok1, fun x hx i hi => ?_, fun i x w hx hw => ?_⟩
    · rw [H.sp]
      have : frameSize fr k % 16 = 0 := by unfold frameSize CC.alignTo; omega
      have : argBytes 0 c.args.length % 16 = 0 := by unfold argBytes; omega
      omega
    · rw [H.sp]
      rw [Nat.succ_mul] at hn
      omega
    · rw [H.sp, hvl]
      have := A.inside
      omega
    · have := H.rel x (.inl hx) i hi
      rw [addr_glob A1 hx] at this
      exact this
    · have hil : i < c.args.length := by rw [← hvl]; exact (List.getElem?_eq_some_iff.1 hw).1
      have ha := List.getElem?_eq_getElem hil
      generalize c.args[i] = a at ha
      have hty : a.ty P.Γ = P.Γ x := by
        have := congrArg (fun l : List (Option CTy) => l[i]?) hpar
        simp only [List.getElem?_map, ha, hx, Option.map_some, Option.some.injEq] at this
        unfold Actual.ty
        rw [this]
      obtain ⟨w', σ', _, h2, _⟩ := hev.each i a w ha hw
      have hp := H.args i a w ha hw
      rw [← hty]
      refine ⟨by rw [h2]; exact conv_range _ _, ?_⟩
      have : (if (siteOf c).ret.isSome = true then 1 else 0) + i = i := by simp [siteOf]
      rw [this] at hp
      exact hp
  obtain ⟨q, s2, r2, B⟩ := hV c.fn vs σ1 v σ2 hO h hf g _ s1 c2 (hlen _ _ c2) hcall
  refine ⟨h, s2, hf, (GRuns.of r1).trans ⟨q, r2⟩, B.sp.trans H.sp, B.bp.trans H.bp, B.sok, ?_, B.result, fun a ho h1 h2 => ?_⟩
  · intro x hx i hi
    rcases hx with hx | hx
    · rw [addr_glob A1 hx]
      exact B.globals x hx i hi
    · have hg : P.glob x = false := A.rules.own x hx
      have h1 : σ2 x = σ1 x := by
        cases n with
        | zero => exact hO.elim
        | succ n => obtain ⟨_, _, _, _, _, h4, _⟩ := hO; exact h4 x hg
      rw [h1, ← H.rel x (.inr hx) i hi]
      obtain ⟨o, h2, h3⟩ := addr_local A1 hx
      have hb : InBlk ((actEnv P I f fr j S).addr x) (P.Γ x).bytes ((actEnv P I f fr j S).addr x + BitVec.ofNat 64 i) := inBlk_add _ _ _ hi (bytes_le _)
      generalize (actEnv P I f fr j S).addr x + BitVec.ofNat 64 i = a at hb ⊢
      rw [h2] at hb
      have h4 := (blk_local A1 h3 a).1 hb
      have h5 := offset_in A1 h3
      have fs := frameSize_ge fr k
      have ins := A.inside
      refine B.mem a (fun y hy hc => ?_) (fun hc => ?_)
      · have := A.stack y a hy hc
        have := A.room
        omega
      · rw [H.sp, hvl] at hc
        omega
  · rw [B.mem a (fun y hy hc => ho.1 y (.inl hy) (by rw [addr_glob A1 hy]; exact hc)) (by rw [H.sp, hvl]; omega)]
    refine m1 a (fun hm => ?_) ho
    rcases hm with hm | ⟨i, hi, hm⟩
    · have hm : InBlk (spAt (siteOf c) (bodySp fr k S)) (argBytes 0 c.args.length) a := hm
      rw [inBlk_nat (by have := S.isLt; omega)] at hm
      omega
    · have hi : HasTemp hs opt P f fr c i := ⟨by have h0 := hi.1; have : hidden (siteOf c) = 0 := rfl; omega, hi.2⟩
      have := (blk_frame A1 (.inl (hT.inside i hi)) (argSize_pos hi) a).1 hm
      have := hT.inside i hi
      omega

end
end Slimcc
