import Verif.Lemmas.Tmp
import Verif.Lemmas.Static
/-! Straight-line pieces of generated code: loads, conversions, operators. -/
set_option autoImplicit false
namespace Slimcc
open Slimcc.Spec Slimcc.Spec.CTy Slimcc.Ty Slimcc.X86 Slimcc.Gen

/-- Registers that temporaries do not use. -/
def Scratch (r : Reg) : Prop := r = .ax ∨ r = .cx ∨ r = .dx

/-- The instructions run, change no memory and only scratch registers. -/
def Calc (E : Env) (l : List Ins) (s : St) (Q : St → Prop) : Prop :=
  ∃ s', execs E.sym l s = some s' ∧ s'.m = s.m ∧ (∀ r, ¬ Scratch r → s'.r r = s.r r) ∧ Q s'

/-- A register holds a value of a type as the code generator keeps it: 32 bits of types up to `int`,
64 bits of `long` and of `bool`. -/
def Reps (t : ITy) (v : Int) (x : Word) : Prop := Low (rop t) v x ∧ (t.kind = .bool → x = BitVec.ofInt 64 v)

theorem rop_le (t : ITy) : rop t ≤ 8 := by rcases rop_cases t with h | h <;> omega
theorem size_le_rop (t : ITy) : t.size ≤ rop t := by
  unfold rop; rcases size_cases t with h | h | h | h <;> simp [h]
theorem rop_big (t : ITy) (h : 4 ≤ t.size) : rop t = t.size := by
  unfold rop; rcases size_cases t with h | h | h | h <;> simp [h] <;> omega
theorem four_le_rop (t : ITy) : 4 ≤ rop t := by rcases rop_cases t with h | h <;> omega
theorem rop_small (t : ITy) (h : t.size ≠ 8) : rop t = 4 := by unfold rop; simp [h]
theorem rop_8 (t : ITy) (h : t.size = 8) : rop t = 8 := by unfold rop; simp [h]

theorem Reps.of_eq (t : ITy) (v : Int) {x : Word} (h : x = BitVec.ofInt 64 v) : Reps t v x := by
  subst h; exact ⟨Low.of_eq _ _ (rop_le t), fun _ => rfl⟩
theorem Reps.low {t : ITy} {v : Int} {x : Word} (h : Reps t v x) : Low t.size v x := h.1.mono (size_le_rop t) (rop_le t)
theorem Reps.low4 {t : ITy} {v : Int} {x : Word} (h : Reps t v x) : Low 4 v x := h.1.mono (four_le_rop t) (rop_le t)
theorem Reps.big {t : ITy} {v : Int} {x : Word} (h : 4 ≤ t.size) (hl : Low t.size v x) : Reps t v x :=
  ⟨by rw [rop_big t h]; exact hl, fun hb => absurd hb (big_ne_bool t h)⟩

section
variable {E : Env} {P : List Line}

theorem Calc.imp {l : List Ins} {s : St} {Q R : St → Prop} (h : Calc E l s Q) (hi : ∀ s', s'.m = s.m → Q s' → R s') : Calc E l s R := by
  obtain ⟨s', a, b, c, d⟩ := h; exact ⟨s', a, b, c, hi s' b d⟩

theorem calc_nil (s : St) (Q : St → Prop) (h : Q s) : Calc E [] s Q := ⟨s, rfl, rfl, fun _ _ => rfl, h⟩

theorem calc_append {a b : List Ins} {s : St} {Q R : St → Prop} (ha : Calc E a s Q)
    (hb : ∀ s1, s1.m = s.m → (∀ r, ¬ Scratch r → s1.r r = s.r r) → Q s1 → Calc E b s1 R) : Calc E (a ++ b) s R := by
  obtain ⟨s1, a1, a2, a3, a4⟩ := ha
  obtain ⟨s2, b1, b2, b3, b4⟩ := hb s1 a2 a3 a4
  exact ⟨s2, by rw [execs_append, a1]; exact b1, b2.trans a2, fun r hr => (b3 r hr).trans (a3 r hr), b4⟩

theorem calc_cons {i : Ins} {b : List Ins} {s : St} {Q R : St → Prop} (ha : Calc E [i] s Q)
    (hb : ∀ s1, s1.m = s.m → (∀ r, ¬ Scratch r → s1.r r = s.r r) → Q s1 → Calc E b s1 R) : Calc E (i :: b) s R :=
  calc_append (a := [i]) ha hb

theorem nbp : ¬ Scratch .bp := by simp [Scratch]
theorem nsp : ¬ Scratch .sp := by simp [Scratch]
theorem ntmp (i : Nat) : ¬ Scratch (.tmp i) := by simp [Scratch]

theorem Calc.eff {s s' : St} (h1 : s'.m = s.m) (h2 : ∀ r, ¬ Scratch r → s'.r r = s.r r) : Eff E 0 0 s s' :=
  eff_regs 0 h1 fun r hr => h2 r (by rcases hr with rfl | ⟨i, _, rfl⟩ | rfl; exact nbp; exact ntmp i; exact nsp)

theorem does_calc {l : List Ins} {s : St} {Q R : St → Prop} (h : Calc E l s Q) (hi : ∀ s', s'.m = s.m → Q s' → R s') (c : Nat) :
    Does E P (inss l c).1 s R := by
  obtain ⟨s', a, b, c', d⟩ := h
  exact does_inss l s s' R a (Calc.eff b c') (hi s' b d) c

/-- One instruction that sets a scratch register. -/
theorem calc_setR (i : Ins) (s : St) (r : Reg) (v : Word) (Q : St → Prop) (f : Option Flags)
    (h : exec E.sym i s = some { s.setR r v with f := f }) (hr : Scratch r)
    (hq : Q { s.setR r v with f := f }) : Calc E [i] s Q := by
  refine ⟨{ s.setR r v with f := f }, ?_, rfl, fun q hq' => ?_, hq⟩
  · simp only [execs, h, Option.bind_some]
  · exact setR_other _ _ _ _ fun e => hq' (e ▸ hr)

theorem calc_setR' (i : Ins) (s : St) (r : Reg) (v : Word) (Q : St → Prop)
    (h : exec E.sym i s = some (s.setR r v)) (hr : Scratch r) (hq : Q (s.setR r v)) : Calc E [i] s Q :=
  calc_setR i s r v Q s.f h hr hq

/-- One instruction that sets only the flags. -/
theorem calc_flags (i : Ins) (s : St) (f : Option Flags) (Q : St → Prop)
    (h : exec E.sym i s = some { s with f := f }) (hq : Q { s with f := f }) : Calc E [i] s Q := by
  refine ⟨{ s with f := f }, ?_, rfl, fun q hq' => rfl, hq⟩
  simp only [execs, h, Option.bind_some]

theorem scratch_ax : Scratch .ax := Or.inl rfl
theorem scratch_cx : Scratch .cx := Or.inr (Or.inl rfl)
theorem scratch_dx : Scratch .dx := Or.inr (Or.inr rfl)

/-! ### Loads -/

theorem rd_var {σ : Store} {m : Mem} (h : Rel E σ m) {x : Nat} (hx : E.dom x) (k : Nat) (hk : k ≤ E.size x) :
    rd m (E.addr x) k = zx k (BitVec.ofInt 64 (σ x)) := by
  rw [rd_prefix m _ (E.size x) k (E.size_le x) hk, h.read hx]
  exact zx_congr k _ _ (sw_zx _ _ _ (by omega))

theorem exact_small (t : ITy) (v : Int) (hw : t.wf = true) (hr : InRange (cty t) v) (hu : t.uns = true) (hs : t.size ≤ 4) :
    zx 4 (BitVec.ofInt 64 v) = BitVec.ofInt 64 v := by
  apply BitVec.eq_of_toNat_eq
  rw [zx_toNat _ _ (by omega)]
  apply Nat.mod_eq_of_lt
  have h := toNat_ofInt64 v
  have hb : 0 ≤ v ∧ v < 4294967296 := by
    have key : ∀ t ∈ allTys, t.uns = true → t.size ≤ 4 → 0 ≤ (cty t).minVal ∧ (cty t).maxVal < 4294967296 := by decide
    have := key t (mem_allTys t hw) hu hs
    unfold InRange at hr; omega
  omega

/-- The extending load of the low part of a variable. -/
theorem load_calc {σ : Store} {s : St} (h : Rel E σ s.m) {x : Nat} (hx : E.dom x) (t : ITy) (v : Int) (m : MemOp) (r : Reg)
    (hw : t.wf = true) (hr : InRange (cty t) v) (hsz : t.size ≤ E.size x) (hd : (2 : Int) ^ (8 * t.size) ∣ σ x - v)
    (hm : ea E.sym s m = E.addr x) (hsc : Scratch r) :
    Calc E [loadExt t m r] s fun s' => Reps t v (s'.r r) ∧ ∀ q, q ≠ r → s'.r q = s.r q := by
  have h8 := size_le t
  have hrd := rd_var h hx t.size hsz
  have hlow : Low t.size v (zx t.size (BitVec.ofInt 64 (σ x))) := ((Low.of_eq t.size (σ x) h8.1).congr hd).zx
  have hext := ext_low t v _ hw hr hlow
  unfold loadExt
  by_cases h1 : t.size = 1 ∨ t.size = 2
  · rw [if_pos h1]
    refine calc_setR' _ s r (zx 4 (BitVec.ofInt 64 v)) _ ?_ hsc ⟨?_, fun q hq => setR_other _ _ _ _ hq⟩
    · simp only [exec, X86.get, hm, hrd]
      rw [put_of_rop 4 _ _ (Or.inl rfl)]
      congr 3
      rw [← hext]
      cases t.uns <;> simp [zx_zx]
    · rw [setR_same]
      refine ⟨?_, fun hb => ?_⟩
      · rw [rop_small t (by omega)]; exact (Low.of_eq 4 v (by omega)).zx
      · have hu : t.uns = true := by
          unfold ITy.wf at hw; rw [hb] at hw; exact hw
        exact exact_small t v hw hr hu (by omega)
  · rw [if_neg h1]
    have hsz4 : t.size = 4 ∨ t.size = 8 := by have := size_cases t; omega
    refine calc_setR' _ s r (zx t.size (BitVec.ofInt 64 (σ x))) _ ?_ hsc ⟨?_, fun q hq => setR_other _ _ _ _ hq⟩
    · simp only [exec, X86.get, hm, hrd, put']
      rw [put_of_rop _ _ _ hsz4, zx_zx]
    · rw [setR_same]; exact Reps.big (by omega) hlow

/-- The load that extends a signed variable to 64 bits. -/
theorem load64_calc {σ : Store} {s : St} (h : Rel E σ s.m) {x : Nat} (hx : E.dom x) (t : ITy) (v : Int) (m : MemOp) (r : Reg)
    (hw : t.wf = true) (hr : InRange (cty t) v) (hsz : t.size ≤ E.size x) (hd : (2 : Int) ^ (8 * t.size) ∣ σ x - v)
    (hm : ea E.sym s m = E.addr x) (hsc : Scratch r) (hu : t.uns = false) :
    Calc E [loadExt64 t m r] s fun s' => s'.r r = BitVec.ofInt 64 v ∧ ∀ q, q ≠ r → s'.r q = s.r q := by
  have h8 := size_le t
  have hrd := rd_var h hx t.size hsz
  have hlow : Low t.size v (zx t.size (BitVec.ofInt 64 (σ x))) := ((Low.of_eq t.size (σ x) h8.1).congr hd).zx
  have hext := ext_low t v _ hw hr hlow
  rw [if_neg (by simp [hu])] at hext
  refine calc_setR' _ s r (BitVec.ofInt 64 v) _ ?_ hsc ⟨setR_same _ _ _, fun q hq => setR_other _ _ _ _ hq⟩
  simp only [loadExt64, exec, X86.get, hm, hrd]
  rw [put_of_rop 8 _ _ (Or.inr rfl), zx8, if_pos trivial, hext]

/-! ### Constants -/

theorem xor_self (sz : Nat) (r : Reg) (s : St) (h : sz = 4 ∨ sz = 8) :
    exec E.sym (.alu .xor sz (.reg r) (.reg r)) s = some { s.setR r 0 with f := none } := by
  simp only [exec, put', aluOp, BitVec.xor_self, Option.map_some, St.noFlags]
  rw [put_of_rop _ _ _ h]
  have : zx sz (0#64) = 0 := by unfold zx; simp
  rw [this]

theorem loadVal_calc (t : ITy) (v : Int) (s : St) (hw : t.wf = true) (hr : InRange (cty t) v) :
    Calc E (loadVal t (BitVec.ofInt 64 v)) s fun s' => Reps t v (s'.r .ax) ∧ (v = 0 ∨ v = 1 → s'.r .ax = BitVec.ofInt 64 v) := by
  unfold loadVal
  by_cases h0 : BitVec.ofInt 64 v = 0
  · rw [if_pos h0]
    refine calc_setR _ s .ax 0 _ none (xor_self 4 .ax s (Or.inl rfl)) scratch_ax ?_
    have : ((s.setR .ax 0).r .ax) = BitVec.ofInt 64 v := by rw [setR_same, h0]
    exact ⟨Reps.of_eq t v this, fun _ => this⟩
  · rw [if_neg h0]
    by_cases h1 : BitVec.ofInt 64 v = zx 4 (BitVec.ofInt 64 v)
    · rw [if_pos h1]
      refine calc_setR' _ s .ax (BitVec.ofInt 64 v) _ ?_ scratch_ax ?_
      · simp only [exec, put', X86.get, put_of_rop 4 _ _ (Or.inl rfl), zx_zx, ← h1]
      · exact ⟨Reps.of_eq t v (setR_same _ _ _), fun _ => setR_same _ _ _⟩
    · rw [if_neg h1]
      have h8 : Calc E [.mov 8 (.imm (BitVec.ofInt 64 v)) (.reg .ax)] s fun s' => Reps t v (s'.r .ax) ∧ (v = 0 ∨ v = 1 → s'.r .ax = BitVec.ofInt 64 v) := by
        refine calc_setR' _ s .ax (BitVec.ofInt 64 v) _ ?_ scratch_ax ?_
        · simp only [exec, put', X86.get, put_of_rop 8 _ _ (Or.inr rfl), zx8]
        · exact ⟨Reps.of_eq t v (setR_same _ _ _), fun _ => setR_same _ _ _⟩
      have hv01 : ¬ (v = 0 ∨ v = 1) := by
        rintro (rfl | rfl)
        · exact h0 rfl
        · exact h1 rfl
      by_cases h2 : BitVec.ofInt 64 v = sx 4 (BitVec.ofInt 64 v)
      · rw [if_pos h2]
        by_cases hs : t.size = 8
        · rw [if_pos hs]; exact h8
        · rw [if_neg hs]
          refine calc_setR' _ s .ax (zx 4 (BitVec.ofInt 64 v)) _ ?_ scratch_ax ?_
          · simp only [exec, put', X86.get, put_of_rop 4 _ _ (Or.inl rfl), zx_zx]
          · refine ⟨⟨?_, fun hb => ?_⟩, fun h => absurd h hv01⟩
            · rw [rop_small t hs, setR_same]; exact (Low.of_eq 4 v (by omega)).zx
            · exfalso
              rw [(cty_bool t).2 hb, range_bool] at hr
              omega
      · rw [if_neg h2]; exact h8

/-! ### Conversions -/

theorem movx_calc (sgn : Bool) (t : ITy) (v : Int) (s : St) (hw : t.wf = true) (hr : InRange (cty t) v) (hs : t.size = 1 ∨ t.size = 2)
    (hu : sgn = !t.uns) (h : Low t.size v (s.r .ax)) (hb : t.kind ≠ .bool) :
    Calc E [.movx sgn t.size 4 (.reg .ax) .ax] s fun s' => Reps t v (s'.r .ax) := by
  have hext := ext_low t v _ hw hr h
  refine calc_setR' _ s .ax (zx 4 (BitVec.ofInt 64 v)) _ ?_ scratch_ax ?_
  · simp only [exec, X86.get, put_of_rop 4 _ _ (Or.inl rfl)]
    congr 3
    rw [← hext, hu]
    cases t.uns <;> simp [sx_zx]
  · rw [setR_same]
    exact ⟨by rw [rop_small t (by omega)]; exact (Low.of_eq 4 v (by omega)).zx, fun h => absurd h hb⟩

theorem cast_kinds (fr to : ITy) (hf : fr.wf = true) (ht : to.wf = true) (hb : to.kind ≠ .bool) :
    (castIns fr to = [] ∧ (to.size = 8 → fr.size = 8 ∨ fr.kind = .bool) ∧
      (to.size < 4 → (cty to).minVal ≤ (cty fr).minVal ∧ (cty fr).maxVal ≤ (cty to).maxVal)) ∨
    (castIns fr to = [.movx (!to.uns) to.size 4 (.reg .ax) .ax] ∧ (to.size = 1 ∨ to.size = 2)) ∨
    (castIns fr to = i32i64 ∧ to.size = 8 ∧ (-2147483648 ≤ (cty fr).minVal ∧ (cty fr).maxVal ≤ 2147483647)) ∨
    (castIns fr to = u32i64 ∧ to.size = 8 ∧ (0 ≤ (cty fr).minVal ∧ (cty fr).maxVal ≤ 4294967295)) := by
  have key : ∀ fr ∈ allTys, ∀ to ∈ allTys, to.kind ≠ .bool →
    (castIns fr to = [] ∧ (to.size = 8 → fr.size = 8 ∨ fr.kind = .bool) ∧
      (to.size < 4 → (cty to).minVal ≤ (cty fr).minVal ∧ (cty fr).maxVal ≤ (cty to).maxVal)) ∨
    (castIns fr to = [.movx (!to.uns) to.size 4 (.reg .ax) .ax] ∧ (to.size = 1 ∨ to.size = 2)) ∨
    (castIns fr to = i32i64 ∧ to.size = 8 ∧ (-2147483648 ≤ (cty fr).minVal ∧ (cty fr).maxVal ≤ 2147483647)) ∨
    (castIns fr to = u32i64 ∧ to.size = 8 ∧ (0 ≤ (cty fr).minVal ∧ (cty fr).maxVal ≤ 4294967295)) := by decide +kernel
  exact key fr (mem_allTys fr hf) to (mem_allTys to ht) hb

theorem sx4_val (v : Int) (x : Word) (h : Low 4 v x) (hr : -2147483648 ≤ v ∧ v ≤ 2147483647) : sx 4 x = BitVec.ofInt 64 v := by
  have := ext_low ty_int v x rfl (by rw [show cty ty_int = .int from rfl, range_int]; exact hr) h
  exact this
theorem zx4_val (v : Int) (x : Word) (h : Low 4 v x) (hr : 0 ≤ v ∧ v ≤ 4294967295) : zx 4 x = BitVec.ofInt 64 v := by
  have := ext_low ty_uint v x rfl (by rw [show cty ty_uint = .uint from rfl, range_uint]; exact hr) h
  exact this

/-- The conversions of the cast table. -/
theorem cast_calc (fr to : ITy) (v : Int) (s : St) (hf : fr.wf = true) (ht : to.wf = true) (hb : to.kind ≠ .bool)
    (hr : InRange (cty fr) v) (h : Reps fr v (s.r .ax)) :
    Calc E (castIns fr to) s fun s' => Reps to (conv (cty to) v) (s'.r .ax) := by
  have hbc : cty to ≠ .bool := fun e => hb ((cty_bool to).1 e)
  have hwid := cty_width to hb
  have hcr := conv_range (cty to) v
  rcases cast_kinds fr to hf ht hb with ⟨e, h8, hs⟩ | ⟨e, hs⟩ | ⟨e, hs, hrg⟩ | ⟨e, hs, hrg⟩ <;> rw [e]
  · refine calc_nil s _ ?_
    by_cases h4 : to.size < 4
    · have := hs h4
      rw [conv_id (cty to) v ⟨Int.le_trans this.1 hr.1, Int.le_trans hr.2 this.2⟩]
      exact ⟨by rw [rop_small to (by omega)]; exact h.low4, fun hk => absurd hk hb⟩
    · refine Reps.big (by omega) ?_
      rcases size_cases to with k | k | k | k
      · omega
      · omega
      · exact (k ▸ h.low4 : Low to.size v _).conv _ hbc (by rw [hwid]; exact Nat.le_refl _)
      · rcases h8 k with f8 | fb
        · exact (by rw [k, ← f8]; exact h.low : Low to.size v _).conv _ hbc (by rw [hwid]; exact Nat.le_refl _)
        · have := h.2 fb
          exact (by rw [this]; exact Low.of_eq _ _ (size_le to).1 : Low to.size v _).conv _ hbc (by rw [hwid]; exact Nat.le_refl _)
  · refine movx_calc _ to _ s ht hcr hs rfl ?_ hb
    have := h.low4.mono (k := to.size) (by omega) (by omega)
    exact this.conv _ hbc (by rw [hwid]; exact Nat.le_refl _)
  · have hv : -2147483648 ≤ v ∧ v ≤ 2147483647 := by unfold InRange at hr; omega
    refine calc_setR' _ s .ax (BitVec.ofInt 64 v) _ ?_ scratch_ax ?_
    · simp only [exec, X86.get, put_of_rop 8 _ _ (Or.inr rfl), if_true, sx_zx, zx8, sx4_val v _ h.low4 hv]
    · rw [setR_same]
      refine Reps.big (by omega) ?_
      exact (Low.of_eq to.size v (size_le to).1).conv _ hbc (by rw [hwid]; exact Nat.le_refl _)
  · have hv : 0 ≤ v ∧ v ≤ 4294967295 := by unfold InRange at hr; omega
    refine calc_setR' _ s .ax (BitVec.ofInt 64 v) _ ?_ scratch_ax ?_
    · simp only [exec, put', X86.get, put_of_rop 4 _ _ (Or.inl rfl), zx_zx]
      rw [zx4_val v _ h.low4 hv]
    · rw [setR_same]
      refine Reps.big (by omega) ?_
      exact (Low.of_eq to.size v (size_le to).1).conv _ hbc (by rw [hwid]; exact Nat.le_refl _)

/-! ### Comparisons -/

theorem put1_exact (o x : Word) : zx 1 (put 1 o x) = zx 1 x := by
  unfold put
  rw [if_neg (by decide), if_neg (by decide)]
  apply BitVec.eq_of_getLsbD_eq
  intro i hi
  unfold zx
  simp only [BitVec.getLsbD_setWidth, BitVec.getLsbD_or, BitVec.getLsbD_shiftLeft]
  by_cases h : i < 8
  · simp [h, hi]
  · simp [h]

theorem setcc_calc (op : CmpOp) (uns : Bool) (s : St) (f : Flags) (hf : s.f = some f) :
    Calc E (setcc op uns) s fun s' => s'.r .ax = if (cmpCC op uns).holds f then 1 else 0 := by
  unfold setcc
  refine calc_cons (Q := fun s1 => zx 1 (s1.r .ax) = if (cmpCC op uns).holds f then 1 else 0) ?_ ?_
  · refine calc_setR' _ s .ax _ _ (by simp only [exec, hf]; rfl) scratch_ax ?_
    rw [setR_same, put1_exact]
    split <;> rfl
  · intro s1 _ _ h
    refine calc_setR' _ s1 .ax _ _ (by simp only [exec]; rfl) scratch_ax ?_
    rw [setR_same, put_of_rop 4 _ _ (Or.inl rfl)]
    simp only [X86.get, h, Bool.false_eq_true, if_false]
    split <;> rfl

theorem truth_word (b : Bool) (v : Int) (h : b = true ↔ v = 1) (hv : v = 0 ∨ v = 1) : (if b then (1 : Word) else 0) = BitVec.ofInt 64 v := by
  rcases hv with rfl | rfl
  · have : b = false := by cases b <;> simp_all
    rw [this]; rfl
  · rw [h.2 rfl]; rfl

theorem xor1_calc (s : St) (v : Int) (h : s.r .ax = BitVec.ofInt 64 v) (hv : v = 0 ∨ v = 1) :
    Calc E [.alu .xor 1 (.imm 1) (.reg .ax)] s fun s' => s'.r .ax = BitVec.ofInt 64 (1 - v) := by
  refine calc_setR _ s .ax _ _ none (by simp only [exec, put', Option.map_some, St.noFlags]; rfl) scratch_ax ?_
  simp only [X86.get, h, setR_same]
  rcases hv with rfl | rfl <;> decide

end
end Slimcc
