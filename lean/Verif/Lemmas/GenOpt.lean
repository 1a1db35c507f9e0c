import Verif.Lemmas.GenPlain2
/-! The shortcuts of the code generator: constants, memory operands, operators with them. -/
set_option autoImplicit false
namespace Slimcc
open Slimcc.Spec Slimcc.Spec.CTy Slimcc.Ty Slimcc.X86 Slimcc.Gen

section
variable {E : Env} {P : List Line} {opt : Bool}

/-- The extending load of an unsigned variable of at most four bytes gives the value exactly. -/
theorem loadx_calc {σ : Store} {s : St} (h : Rel E σ s.m) {x : Nat} (hx : E.dom x) (t : ITy) (v : Int) (m : MemOp) (r : Reg)
    (hw : t.wf = true) (hr : InRange (cty t) v) (hsz : t.size ≤ E.size x) (hd : (2 : Int) ^ (8 * t.size) ∣ σ x - v)
    (hm : ea E.sym s m = E.addr x) (hsc : Scratch r) (hu : t.uns = true) (h4 : t.size ≤ 4) :
    Calc E [loadExt t m r] s fun s' => s'.r r = BitVec.ofInt 64 v ∧ ∀ q, q ≠ r → s'.r q = s.r q := by
  have h8 := size_le t
  have hrd := rd_var h hx t.size hsz
  have hlow : Low t.size v (zx t.size (BitVec.ofInt 64 (σ x))) := ((Low.of_eq t.size (σ x) h8.1).congr hd).zx
  have hext := ext_low t v _ hw hr hlow
  rw [if_pos hu, zx_zx] at hext
  have hex := exact_small t v hw hr hu h4
  refine calc_setR' _ s r (BitVec.ofInt 64 v) _ ?_ hsc ⟨setR_same _ _ _, fun q hq => setR_other _ _ _ _ hq⟩
  unfold loadExt
  by_cases h1 : t.size = 1 ∨ t.size = 2
  · rw [if_pos h1]
    simp only [exec, X86.get, hm, hrd, hu, Bool.not_true, Bool.false_eq_true, if_false]
    rw [put_of_rop 4 _ _ (Or.inl rfl), hext, hex]
  · rw [if_neg h1]
    have : t.size = 4 := by have := size_cases t; omega
    simp only [exec, X86.get, hm, hrd, put']
    rw [put_of_rop _ _ _ (Or.inl this), hext]
    rw [this, hex]

theorem const_val (hs : HostShift) {nt : ITy} {acc : Int} (hacc : InRange (cty nt) acc) {n : Node} {σ σ' : Store} {v : Int} {w : Word}
    (hwf : WfNode E.Γ nt n) (hσ : StoreOk E.Γ σ) (he : evalNode hs n = .ok w) (h : neval acc n σ = .ok (v, σ')) :
    w = BitVec.ofInt 64 v ∧ σ' = σ := by
  have := evalNode_agrees hs hacc n σ hwf hσ
  rw [h, he] at this
  simp only [Agrees] at this
  rcases this with h | ⟨h, e⟩
  · cases h
  · injection h with h; exact ⟨h, e⟩

theorem limitImm_same (v : Word) (sz : Nat) (h : sz ≤ 8) : SameLow sz (limitImm v sz) v := by
  unfold limitImm
  split
  · exact SameLow.rfl' _ _
  · exact sw_sx _ _ _ (Nat.le_refl _) (by omega)

theorem limitImm_low (v : Int) (sz : Nat) (h : sz ≤ 8) : Low sz v (limitImm (BitVec.ofInt 64 v) sz) :=
  (Low.of_eq sz v h).same (limitImm_same _ _ h)

/-- The value of a memory operand in a store where its variable is the same. -/
theorem memop_val {nt : ITy} {acc : Int} {r : Node} {x : Nat} {σ0 σ0' : Store} {v : Int} (hx : memop r = some x) (hwf : WfNode E.Γ nt r)
    (h : neval acc r σ0 = .ok (v, σ0')) : σ0' = σ0 ∧ NoNull r ∧ x ∈ nvars r ∧ r.ty.size = E.size x ∧ (2 : Int) ^ (8 * r.ty.size) ∣ σ0 x - v := by
  obtain ⟨h1, h2, h3, h4, _, _, h7⟩ := memop_spec (acc := acc) r x hx hwf
  obtain ⟨w, hw, hd⟩ := h7 σ0
  rw [hw] at h
  injection h with h; injection h with ha hb
  subst ha hb
  exact ⟨rfl, h1, h2, by rw [h3, E.size_eq], hd⟩

theorem stat_dom {dom : Nat → Prop} : ∀ (n : Node) (x : Nat), Stat dom opt n → x ∈ nvars n → dom x := by
  intro n
  induction n with
  | num | null => intro x _ h; simp [nvars] at h
  | var t y => intro x s h; simp [nvars] at h; subst h; exact s
  | cast _ e ih => intro x s h; exact ih x s h
  | un _ _ e ih | not e ih => intro x s h; exact ih x s.1 h
  | bin _ _ a b iha ihb | shift _ _ a b iha ihb | cmp _ a b iha ihb | logand a b iha ihb | logor a b iha ihb | comma a b iha ihb =>
    intro x s h
    simp only [nvars, List.mem_append] at h
    exact h.elim (iha x s.1) (ihb x s.2.1)
  | cond _ c a b ihc iha ihb =>
    intro x s h
    simp only [nvars, List.mem_append] at h
    exact h.elim (ihc x s.1) fun h => h.elim (iha x s.2.1) (ihb x s.2.2.1)
  | assign _ y r ih | arithAssign _ _ y r ih | postIncDec _ y r ih =>
    intro x s h
    simp only [nvars, List.mem_cons] at h
    rcases h with rfl | h
    · exact s.1
    · exact ih x s.2.1 h

theorem dvd_low {k n : Nat} {a b : Int} (h : k ≤ n) (hd : (2 : Int) ^ (8 * n) ∣ a - b) : (2 : Int) ^ (8 * k) ∣ a - b :=
  Int.dvd_trans (pow_dvd (by omega)) hd

/-- What a variable's memory gives as an operand of size `sz`. -/
theorem get_var (hok : E.Ok) {σ : Store} {s : St} {x : Nat} (hx : E.dom x) (hbp : s.r .bp = E.bp) (hrel : Rel E σ s.m) (sz : Nat) (hsz : sz ≤ E.size x) :
    X86.get E.sym s sz (.mem (E.loc x)) = zx sz (BitVec.ofInt 64 (σ x)) := by
  simp only [X86.get]
  rw [ea_loc hok hx s hbp]
  exact rd_var hrel hx sz hsz

theorem low_var (hok : E.Ok) {σ : Store} {s : St} {x : Nat} (hx : E.dom x) (hbp : s.r .bp = E.bp) (hrel : Rel E σ s.m) (sz : Nat) (hsz : sz ≤ E.size x)
    {v : Int} (hd : (2 : Int) ^ (8 * sz) ∣ σ x - v) : Low sz v (X86.get E.sym s sz (.mem (E.loc x))) := by
  rw [get_var hok hx hbp hrel sz hsz]
  exact ((Low.of_eq sz _ (Nat.le_trans hsz (E.size_le x))).congr hd).zx

/-- The operand that the code does not evaluate has no effects. -/
theorem arithOpt2_pure (hs : HostShift) (rec : Node → G) (k : ArOp) (op : Alu) (sz : Nat) (l r : Node) (i : Nat) (g : G)
    (hg : arithOpt2 hs E.loc rec k op sz l r i = some g) {nt : ITy} {acc : Int} (hacc : InRange (cty nt) acc) (hwf : WfNode E.Γ nt r) (hst : Stat E.dom opt r) :
    NoNull r ∧ ∀ σ v σ', StoreOk E.Γ σ → neval acc r σ = .ok (v, σ') → σ' = σ := by
  have hcast : ∀ t e x, r = .cast t e → memop e = some x → NoNull r ∧ ∀ σ v σ', StoreOk E.Γ σ → neval acc r σ = .ok (v, σ') → σ' = σ := by
    rintro t e x rfl hx
    have := memop_spec (acc := acc) e x hx hwf.2
    refine ⟨this.1, fun σ v σ' _ h => ?_⟩
    simp only [neval, bind_ok_iff, Res.ok.injEq, Prod.mk.injEq] at h
    obtain ⟨⟨w, σ1⟩, h1, _, rfl⟩ := h
    exact (memop_val hx hwf.2 h1).1
  unfold arithOpt2 at hg
  split at hg
  · split at hg
    · rename_i he
      exact ⟨evalNode_noNull hs opt E.dom r _ hst he, fun σ v σ' hσ h => (const_val hs hacc hwf hσ he h).2⟩
    · cases hg
  · split at hg
    · rename_i hx
      exact ⟨(memop_spec (acc := acc) r _ hx hwf).1, fun σ v σ' _ h => (memop_val hx hwf h).1⟩
    · cases hg
  · split at hg
    · split at hg
      · rename_i hx; exact hcast _ _ _ rfl hx
      · cases hg
    · cases hg
  · split at hg
    · split at hg
      · rename_i hx; exact hcast _ _ _ rfl hx
      · cases hg
    · cases hg

/-- The operand in memory or constant: the code computes the operator on the low `sz` bytes. -/
theorem arithOpt2_ok (hok : E.Ok) (hs : HostShift) (rec : Node → G) (k : ArOp) (op : Alu) (sz : Nat) (l r : Node) (i : Nat) (g : G)
    (hg : arithOpt2 hs E.loc rec k op sz l r i = some g) (hk : aluOf k = some op) (hsz : sz = 4 ∨ sz = 8) {t : ITy} (hlt : l.ty = t) (hrt : r.ty = t)
    (hst : sz ≤ t.size) {nt : ITy} {acc : Int} {σ σ2 σ0 σ0' : Store} {s : St} {vl vr v : Int} (hp : Pre E opt nt acc l σ s) (hwr : WfNode E.Γ nt r) (hsr : Stat E.dom opt r)
    (hl : neval acc l σ = .ok (vl, σ2)) (hσ0 : StoreOk E.Γ σ0) (hr : neval acc r σ0 = .ok (vr, σ0')) (hag : ∀ x, x ∈ nvars r → σ2 x = σ0 x)
    (hv : arith (cty t) k vl vr = .ok v) (hE : ExprOk E P opt (rec l) l) (c : Nat) (hK : (g c).1.st ≤ E.K) :
    Does E P (g c).1 s fun s' => Rel E σ2 s'.m ∧ Low sz v (s'.r .ax) := by
  have h4 : 4 ≤ t.size := by omega
  have h8 : sz ≤ 8 := by omega
  have hrop : rop l.ty = t.size := by rw [hlt, rop_big t h4]
  -- every case evaluates `l` and then combines it with something equal to `vr` in its low bytes
  have main : ∀ (li : List Ins), g = (rec l ;; inss li) →
      (∀ s1, s1.r .bp = E.bp → Rel E σ2 s1.m → Calc E li s1 fun s' => ∃ y, Low sz vr y ∧ SameLow sz (s'.r .ax) (aluOp op (s1.r .ax) y)) →
      Does E P (g c).1 s fun s' => Rel E σ2 s'.m ∧ Low sz v (s'.r .ax) := by
    rintro li rfl hli
    refine does_seq _ _ c s _ _ (hE nt acc σ s vl σ2 c hp hl (seq_st_le hK).1) fun s1 e1 q1 => ?_
    refine does_calc (hli s1 (e1.bp.trans hp.bp) q1.1) (fun s' hm ⟨y, hy, hq⟩ => ⟨by rw [hm]; exact q1.1, ?_⟩) _
    have := q1.2.1.1
    rw [hrop] at this
    exact (alu_low k op t sz vl vr v _ y h4 hst hk hv (this.mono hst (size_le t).1) hy).same hq
  -- one instruction with the variable as operand
  have mem : ∀ x, E.dom x → sz ≤ E.size x → (2 : Int) ^ (8 * sz) ∣ σ2 x - vr → g = (rec l ;; inss [.alu op sz (.mem (E.loc x)) (.reg .ax)]) →
      Does E P (g c).1 s fun s' => Rel E σ2 s'.m ∧ Low sz v (s'.r .ax) := by
    intro x hx hxs hd hg
    refine main _ hg fun s1 hb hrel => ?_
    refine (alu_calc op sz hsz _ _ s1 (SameLow.rfl' _ _)).imp fun s' _ q => ⟨_, ?_, q⟩
    exact low_var hok hx hb hrel sz hxs hd
  have cast : ∀ t' e x, r = .cast t' e → memop e = some x → ∃ w, E.dom x ∧ e.ty.size = E.size x ∧ InRange (cty e.ty) w ∧ e.ty.wf = true ∧
      (2 : Int) ^ (8 * e.ty.size) ∣ σ2 x - w ∧ vr = conv (cty t) w := by
    rintro t' e x rfl hx
    simp only [neval, bind_ok_iff, Res.ok.injEq, Prod.mk.injEq] at hr
    obtain ⟨⟨w, σ1⟩, h1, rfl, rfl⟩ := hr
    have := memop_val hx hwr.2 h1
    have hin : x ∈ nvars (.cast t' e) := this.2.2.1
    refine ⟨w, stat_dom _ x hsr hin, this.2.2.2.1, (neval_range hp.accr e σ0 hwr.2 hσ0 w σ1 h1).1, wf_ty _ hwr.2, ?_, ?_⟩
    · rw [hag x hin]; exact this.2.2.2.2
    · rw [← hrt]; rfl
  unfold arithOpt2 at hg
  split at hg
  · split at hg
    · rename_i w he
      injection hg with hg
      refine main _ hg.symm fun s1 _ _ => ?_
      refine (immArith_calc k op sz hsz _ s1 hk).imp fun s' _ q => ⟨_, ?_, q⟩
      rw [(const_val hs hp.accr hwr hσ0 he hr).1]
      exact limitImm_low vr sz h8
    · cases hg
  · split at hg
    · rename_i x hx
      injection hg with hg
      have hm := memop_val hx hwr hr
      rw [hrt] at hm
      refine mem x (stat_dom r x hsr hm.2.2.1) (by omega) ?_ hg.symm
      rw [hag x hm.2.2.1]
      exact dvd_low hst hm.2.2.2.2
    · cases hg
  · split at hg
    · rename_i t' e
      split at hg
      · rename_i x hx
        split at hg
        · rename_i hle
          injection hg with hg
          obtain ⟨w, hdx, hes, _, _, hd, rfl⟩ := cast t' e x rfl hx
          refine mem x hdx (by omega) ?_ hg.symm
          have d1 := dvd_low hle hd
          have d2 := conv_dvd (cty t) w sz (cty_ne_bool t h4) (by rw [width_size t h4]; omega)
          have := Int.dvd_add d1 d2
          exact Int.dvd_trans this ⟨1, by omega⟩
        · cases hg
      · cases hg
    · cases hg
  · split at hg
    · rename_i t' e
      split at hg
      · rename_i x hx
        split at hg
        · rename_i hgt
          injection hg with hg
          obtain ⟨w, hdx, hes, hrw, hwe, hd, rfl⟩ := cast t' e x rfl hx
          refine main _ hg.symm fun s1 hb hrel => ?_
          have hm := ea_loc hok hdx s1 hb
          have fin : ∀ ld, Calc E [ld] s1 (fun s' => Low sz w (s'.r .dx) ∧ s'.r .ax = s1.r .ax) →
              Calc E [ld, .alu op sz (.reg .dx) (.reg .ax)] s1 fun s' => ∃ y, Low sz (conv (cty t) w) y ∧ SameLow sz (s'.r .ax) (aluOp op (s1.r .ax) y) := by
            intro ld hld
            refine calc_cons hld fun s2 _ _ q2 => ?_
            refine (alu_calc op sz hsz (.reg .dx) _ s2 (SameLow.rfl' _ _)).imp fun s' _ q => ⟨_, ?_, by rw [← q2.2]; exact q⟩
            simp only [X86.get]
            exact q2.1.zx.conv _ (cty_ne_bool t h4) (by rw [width_size t h4]; omega)
          apply fin
          by_cases hu : e.ty.uns = true
          · rw [if_neg (by simp [hu])]
            exact (loadx_calc (σ := σ2) hrel hdx e.ty w _ .dx hwe hrw (by omega) hd hm scratch_dx hu (by have := size_cases e.ty; omega)).imp
              fun s' _ q => ⟨by rw [q.1]; exact Low.of_eq sz w h8, q.2 .ax (by simp)⟩
          · have hu : e.ty.uns = false := by simpa using hu
            rcases hsz with hsz | hsz
            · rw [if_neg (by simp [hsz])]
              exact (load_calc (σ := σ2) hrel hdx e.ty w _ .dx hwe hrw (by omega) hd hm scratch_dx).imp
                fun s' _ q => ⟨by rw [hsz]; exact q.1.low4, q.2 .ax (by simp)⟩
            · rw [if_pos (by simp [hu, hsz])]
              exact (load64_calc (σ := σ2) hrel hdx e.ty w _ .dx hwe hrw (by omega) hd hm scratch_dx hu).imp
                fun s' _ q => ⟨by rw [q.1]; exact Low.of_eq sz w h8, q.2 .ax (by simp)⟩
        · cases hg
      · cases hg
    · cases hg

/-- The operators that `arithOpt` exchanges the operands of commute. -/
theorem arith_comm (t : CTy) (k : ArOp) (op : Alu) (a b : Int) (hk : aluOf k = some op) (hn : k ≠ .sub) : arith t k a b = arith t k b a := by
  cases k <;> simp only [aluOf, reduceCtorEq] at hk hn
  all_goals try (simp at hn)
  all_goals unfold arith
  · simp only [Int.add_comm]
  · simp only [Int.mul_comm]
  all_goals simp only [bitwise, BitVec.and_comm, BitVec.or_comm, BitVec.xor_comm]

/-- An operator with one operand in memory or constant. -/
theorem arithOpt_ok (hok : E.Ok) (hs : HostShift) (rec : Node → G) (sz : Nat) (k : ArOp) (a b : Node) (g : G)
    (hg : arithOpt hs E.loc rec sz k a b = some g) (hsz : sz = 4 ∨ sz = 8) {t : ITy} (hst : sz ≤ t.size) (ho : opt = true)
    {nt : ITy} {acc : Int} {σ σ' : Store} {s : St} {v : Int} (hp : Pre E opt nt acc (.bin k t a b) σ s)
    (h : neval acc (.bin k t a b) σ = .ok (v, σ')) (hEa : ExprOk E P opt (rec a) a) (hEb : ExprOk E P opt (rec b) b) (c : Nat) (hK : (g c).1.st ≤ E.K) :
    Does E P (g c).1 s fun s' => Rel E σ' s'.m ∧ Low sz v (s'.r .ax) := by
  simp only [neval, bind_ok_iff, Res.ok.injEq, Prod.mk.injEq] at h
  obtain ⟨⟨va, σ1⟩, h1, ⟨vb, σ2⟩, h2, r, h3, rfl, rfl⟩ := h
  obtain ⟨hta, htb, h4, hwa, hwb⟩ := hp.wf
  obtain ⟨sa, sb, nb, sep⟩ := hp.stat
  have hpa : Pre E opt nt acc a σ s := hp.left hwa sa fun h => h.1
  have ra := hpa.range h1
  unfold arithOpt at hg
  split at hg
  · cases hg
  · rename_i op hk
    have one : ∀ i, ((arithOpt2 hs E.loc rec k op sz a b i).orElse fun _ => if k = .sub then none else arithOpt2 hs E.loc rec k op sz b a i) = some g →
        Does E P (g c).1 s fun s' => Rel E σ2 s'.m ∧ Low sz r (s'.r .ax) := by
      intro i hi
      cases h5 : arithOpt2 hs E.loc rec k op sz a b i with
      | some g' =>
        rw [h5] at hi
        simp only [Option.orElse_some, Option.some.injEq] at hi
        subst hi
        have hpure := arithOpt2_pure hs rec k op sz a b i g' h5 hp.accr hwb sb
        have e := hpure.2 σ1 vb σ2 ra.2 h2
        subst e
        exact arithOpt2_ok hok hs rec k op sz a b i g' h5 hk hsz hta htb hst hpa hwb sb h1 ra.2 h2 (fun _ _ => rfl) h3 hEa c hK
      | none =>
        rw [h5] at hi
        simp only [Option.orElse_none] at hi
        split at hi
        · cases hi
        · rename_i hns
          have hpure := arithOpt2_pure hs rec k op sz b a i g hi hp.accr hwa sa
          have e := hpure.2 σ va σ1 hp.sok h1
          subst e
          have hpb : Pre E opt nt acc b σ1 s := ⟨hwb, hp.accr, sb, hp.sok, hp.bp, hp.rel, Or.inl nb⟩
          refine arithOpt2_ok hok hs rec k op sz b a i g hi hk hsz htb hta hst hpb hwa sa h2 hp.sok h1 (fun x hx => ?_) ?_ hEb c hK
          · exact neval_writes b σ1 vb σ2 h2 x (sep ho x hx)
          · rw [arith_comm _ k op _ _ hk hns]; exact h3
    dsimp only at hg
    cases h0 : (arithOpt2 hs E.loc rec k op sz a b 0).orElse fun _ => if k = .sub then none else arithOpt2 hs E.loc rec k op sz b a 0 with
    | some g' => rw [h0] at hg; exact one 0 (h0.trans hg)
    | none =>
      rw [h0] at hg
      simp only [Option.orElse_none] at hg
      cases h1 : (arithOpt2 hs E.loc rec k op sz a b 1).orElse fun _ => if k = .sub then none else arithOpt2 hs E.loc rec k op sz b a 1 with
      | some g' => rw [h1] at hg; exact one 1 (h1.trans hg)
      | none =>
        rw [h1] at hg
        simp only [Option.orElse_none] at hg
        cases h2 : (arithOpt2 hs E.loc rec k op sz a b 2).orElse fun _ => if k = .sub then none else arithOpt2 hs E.loc rec k op sz b a 2 with
        | some g' => rw [h2] at hg; exact one 2 (h2.trans hg)
        | none =>
          rw [h2] at hg
          simp only [Option.orElse_none] at hg
          exact one 3 hg

/-- What a comparison leaves in the flags. -/
def Compared (t : ITy) (a b : Int) (f : Option Flags) : Prop :=
  ∃ x y, Low t.size a x ∧ Low t.size b y ∧ f = some (cmpFlags t.size x y)

theorem cmpOpt2_ok (hok : E.Ok) (hs : HostShift) (rec : Node → G) (l r : Node) (g : G) (hg : cmpOpt2 hs E.loc rec l r = some g)
    {t : ITy} (hlt : l.ty = t) (hrt : r.ty = t) (h4 : 4 ≤ t.size) {nt : ITy} {acc : Int} {σ σ2 : Store} {s : St} {vl vr : Int} (hbp : s.r .bp = E.bp) (hrel : Rel E σ s.m)
    (hσ : StoreOk E.Γ σ) (hacc : InRange (cty nt) acc) (hwr : WfNode E.Γ nt r)
    (hA : ∀ w, evalNode hs r = .ok w → w = BitVec.ofInt 64 vr ∧ neval acc l σ = .ok (vl, σ2) ∧ Pre E opt nt acc l σ s)
    (hB : ∀ x, memop l = some x → neval acc r σ = .ok (vr, σ2) ∧ Pre E opt nt acc r σ s ∧ E.dom x ∧ t.size = E.size x ∧ (2 : Int) ^ (8 * t.size) ∣ σ2 x - vl)
    (hEl : ExprOk E P opt (rec l) l) (hEr : ExprOk E P opt (rec r) r) (c : Nat) (hK : (g c).1.st ≤ E.K) :
    Does E P (g c).1 s fun s' => Rel E σ2 s'.m ∧ Compared t vl vr s'.f := by
  have h8 := (size_le t).1
  have hrop : rop l.ty = t.size := by rw [hlt, rop_big t h4]
  have hsz : t.size = 4 ∨ t.size = 8 := by have := size_cases t; omega
  unfold cmpOpt2 at hg
  split at hg
  · rename_i w he
    obtain ⟨hw, hl, hpl⟩ := hA w he
    split at hg
    · rename_i x hx
      injection hg with hg
      subst hg
      obtain ⟨hr, hpr, hdx, hes, hd⟩ := hB x hx
      have := (const_val hs hacc hwr hσ he hr).2
      subst this
      obtain ⟨s2, r1, r2, r3, r4⟩ := immTmpl_run (E := E) (fun o => .cmp (rop l.ty) o (.mem (E.loc x))) (limitImm w l.ty.size) s
        { s with f := some (cmpFlags (rop l.ty) (X86.get E.sym s (rop l.ty) (.mem (E.loc x))) (zx (rop l.ty) (limitImm w l.ty.size))) }
        (fun s1 o hm hr hgo => ⟨_, rfl, hm, fun _ _ => rfl, by
          dsimp only
          rw [hgo _ (rop_le _)]
          have : X86.get E.sym s1 (rop l.ty) (.mem (E.loc x)) = X86.get E.sym s (rop l.ty) (.mem (E.loc x)) := by
            simp only [X86.get, hm]
            rw [ea_loc hok hdx s1 (by rw [hr _ (by simp)]; exact hbp), ea_loc hok hdx s hbp]
          rw [this]⟩)
      refine does_inss _ s s2 _ r1 (Calc.eff r2 r3) ⟨by rw [r2]; exact hrel, ?_⟩ c
      rw [r4, hrop]
      refine ⟨_, _, low_var hok hdx hbp hrel t.size (by omega) hd, ?_, rfl⟩
      rw [hlt, hw]
      exact (limitImm_low vr t.size h8).zx
    · injection hg with hg
      subst hg
      refine does_seq _ _ c s _ _ (hEl nt acc σ s vl σ2 c hpl hl (seq_st_le hK).1) fun s1 e1 q1 => ?_
      rw [hrop]
      refine does_calc (immCmp_calc t.size hsz _ s1) (fun s' hm q => ⟨by rw [hm]; exact q1.1, _, _, ?_, ?_, q⟩) _
      · have := q1.2.1.1
        rwa [hrop] at this
      · rw [hlt, hw]; exact limitImm_low vr t.size h8
  · split at hg
    · rename_i x hx
      injection hg with hg
      subst hg
      obtain ⟨hr, hpr, hdx, hes, hd⟩ := hB x hx
      refine does_seq _ _ c s _ _ (hEr nt acc σ s vr σ2 c hpr hr (seq_st_le hK).1) fun s1 e1 q1 => ?_
      rw [hrop]
      refine does_calc (cmp_calc t vl vr (.reg .ax) (.mem (E.loc x)) s1 ?_ ?_)
        (fun s' hm ⟨x, y, hx, hy, hf, _⟩ => ⟨by rw [hm]; exact q1.1, x, y, hx, hy, hf⟩) _
      · exact low_var hok hdx (e1.bp.trans hbp) q1.1 t.size (by omega) hd
      · simp only [X86.get]
        have := q1.2.1.low
        rw [hrt] at this
        exact this.zx
    · cases hg

theorem cmp_swap (op : CmpOp) (a b : Int) : cmpVal (swapCmp op) b a = cmpVal op a b := by
  cases op <;> simp only [swapCmp, cmpVal, gt_iff_lt, ge_iff_le, eq_comm, ne_comm]

/-- A comparison with one operand in memory or constant. -/
theorem cmpOpt_ok (hok : E.Ok) (hs : HostShift) (rec : Node → G) (op op' : CmpOp) (a b : Node) (g : G)
    (hg : cmpOpt hs E.loc rec op a b = some (g, op')) (ho : opt = true)
    {nt : ITy} {acc : Int} {σ σ1 σ2 : Store} {s : St} {va vb : Int} (hp : Pre E opt nt acc (.cmp op a b) σ s)
    (h1 : neval acc a σ = .ok (va, σ1)) (h2 : neval acc b σ1 = .ok (vb, σ2)) (hEa : ExprOk E P opt (rec a) a) (hEb : ExprOk E P opt (rec b) b) (c : Nat) (hK : (g c).1.st ≤ E.K) :
    Does E P (g c).1 s fun s' => Rel E σ2 s'.m ∧ ∃ p q, Compared a.ty p q s'.f ∧ InRange (cty a.ty) p ∧ InRange (cty a.ty) q ∧ cmpVal op' p q = cmpVal op va vb := by
  obtain ⟨htb, h4, hwa, hwb⟩ := hp.wf
  obtain ⟨sa, sb, nb, sep⟩ := hp.stat
  have hpa : Pre E opt nt acc a σ s := hp.left hwa sa fun h => h.1
  have hra := hpa.range h1
  have hrb := neval_range hp.accr b σ1 hwb hra.2 vb σ2 h2
  rw [htb] at hrb
  unfold cmpOpt at hg
  split at hg
  · rename_i g' h5
    simp only [Option.some.injEq, Prod.mk.injEq] at hg
    obtain ⟨rfl, rfl⟩ := hg
    refine (cmpOpt2_ok (t := a.ty) hok hs rec a b g' h5 rfl htb h4 (vl := va) (vr := vb) (σ2 := σ2) hp.bp hp.rel hp.sok hp.accr hwb (fun w he => ?_) (fun x hx => ?_) hEa hEb c hK).imp
      fun s' _ q => ⟨q.1, va, vb, q.2, hra.1, hrb.1, rfl⟩
    · have := const_val hs hp.accr hwb hra.2 he h2
      obtain ⟨hw, rfl⟩ := this
      exact ⟨hw, h1, hpa⟩
    · have hm := memop_val hx hwa h1
      obtain ⟨rfl, hn, hin, hsz, hd⟩ := hm
      refine ⟨h2, ⟨hwb, hp.accr, sb, hp.sok, hp.bp, hp.rel, Or.inl nb⟩, stat_dom a x sa hin, hsz, ?_⟩
      rw [neval_writes b _ vb σ2 h2 x (sep ho x hin)]
      exact hd
  · split at hg
    · rename_i g' h5
      simp only [Option.some.injEq, Prod.mk.injEq] at hg
      obtain ⟨rfl, rfl⟩ := hg
      refine (cmpOpt2_ok (t := a.ty) hok hs rec b a g' h5 htb rfl h4 (vl := vb) (vr := va) (σ2 := σ2) hp.bp hp.rel hp.sok hp.accr hwa (fun w he => ?_) (fun x hx => ?_) hEb hEa c hK).imp
        fun s' _ q => ⟨q.1, vb, va, q.2, hrb.1, hra.1, cmp_swap op va vb⟩
      · obtain ⟨hw, rfl⟩ := const_val hs hp.accr hwa hp.sok he h1
        exact ⟨hw, h2, ⟨hwb, hp.accr, sb, hp.sok, hp.bp, hp.rel, Or.inl nb⟩⟩
      · obtain ⟨rfl, hn, hin, hsz, hd⟩ := memop_val hx hwb h2
        rw [htb] at hsz hd
        exact ⟨h1, hpa, stat_dom b x sb hin, hsz, hd⟩
    · cases hg

end
end Slimcc
