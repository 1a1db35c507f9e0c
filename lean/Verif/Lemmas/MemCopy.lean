import Verif.Model.MemCopy
import Verif.Lemmas.BitField
/-! Block copies and clears. -/
set_option autoImplicit false
namespace Slimcc.MemL
open Slimcc.Spec Slimcc.X86 Slimcc.MemCopy

theorem sub_off (b D : Word) (i : Nat) (hi : i < 2 ^ 63) :
    (b - (D + BitVec.ofNat 64 i)).toNat = if i ≤ (b - D).toNat then (b - D).toNat - i else (b - D).toNat + 2 ^ 64 - i := by
  have e : b - (D + BitVec.ofNat 64 i) = (b - D) - BitVec.ofNat 64 i := by
    rw [BitVec.sub_eq_add_neg, BitVec.neg_add, BitVec.sub_eq_add_neg, BitVec.sub_eq_add_neg, BitVec.sub_eq_add_neg, BitVec.add_assoc]
  rw [e, BitVec.toNat_sub, BitVec.toNat_ofNat, Nat.mod_eq_of_lt (by omega : i < 2 ^ 64)]
  have := (b - D).isLt
  split <;> omega

theorem base_off (x : Word) (k : Nat) (ofs : Int) : x + BitVec.ofInt 64 (k + ofs) = x + BitVec.ofInt 64 ofs + BitVec.ofNat 64 k := by
  rw [Int.add_comm, BitVec.ofInt_add, BitVec.add_assoc, BitVec.ofInt_natCast]

theorem p2_cases (r : Nat) (h : 0 < r) : (p2 r = 1 ∨ p2 r = 2 ∨ p2 r = 4 ∨ p2 r = 8) ∧ p2 r ≤ r := by
  unfold p2; repeat' split
  all_goals omega

theorem rd_byte (m : Mem) (a : Word) (n k : Nat) (hn : n ≤ 8) (hk : k < n) :
    ((rd m a n) >>> (8 * k)).setWidth 8 = m (a + BitVec.ofNat 64 k) := by
  apply BFL.bv_ext
  intro j hj
  rw [byte_bits _ _ _ hj, rd_bits _ _ _ _ hn, show (8 * k + j) / 8 = k by omega, show (8 * k + j) % 8 = j by omega]
  simp; omega

theorem zx_byte (n k : Nat) (x : Word) (hn : n ≤ 8) (hk : k < n) : ((zx n x) >>> (8 * k)).setWidth 8 = (x >>> (8 * k)).setWidth 8 := by
  apply BFL.bv_ext
  intro j hj
  rw [byte_bits _ _ _ hj, byte_bits _ _ _ hj, BFL.zx_bit _ _ _ (by omega)]
  simp; omega

theorem zx_put (n : Nat) (h : n = 1 ∨ n = 2 ∨ n = 4 ∨ n = 8) (o x : Word) : zx n (put n o x) = zx n x := by
  apply BFL.bv_ext
  intro i hi
  rw [BFL.zx_bit _ _ _ hi, BFL.zx_bit _ _ _ hi]
  by_cases h1 : i < 8 * n
  · simp only [h1, decide_true, Bool.true_and]
    unfold put
    split
    · rfl
    · split
      · rw [BFL.zx_bit _ _ _ hi]; simp; omega
      · rw [BitVec.getLsbD_or, BitVec.getLsbD_shiftLeft, BFL.zx_bit _ _ _ hi]
        simp [h1]
  · simp [h1]

/-- A block moved: `n` bytes from `a` to `c`. -/
def moved (m : Mem) (a c : Word) (n : Nat) : Mem :=
  fun b => if (b - c).toNat < n then m (a + BitVec.ofNat 64 (b - c).toNat) else m b

/-- The first `i` bytes have been copied. -/
def Done (m0 : Mem) (S D : Word) (i : Nat) (m : Mem) : Prop :=
  ∀ b, m b = if (b - D).toNat < i then m0 (S + BitVec.ofNat 64 (b - D).toNat) else m0 b

theorem done_step {m0 m : Mem} {S D : Word} {sz i n : Nat} (hd : Disj S sz D sz ∨ S = D) (hi : i + n ≤ sz) (hs : sz < 2 ^ 63)
    (h : Done m0 S D i m) : Done m0 S D (i + n) (moved m (S + BitVec.ofNat 64 i) (D + BitVec.ofNat 64 i) n) := by
  intro b
  unfold moved
  rw [sub_off _ _ _ (by omega)]
  have hlt := (b - D).isLt
  by_cases h1 : i ≤ (b - D).toNat
  · rw [if_pos h1]
    by_cases h2 : (b - D).toNat - i < n
    · rw [if_pos h2, if_pos (by omega), BitVec.add_assoc, ← BitVec.ofNat_add, show i + ((b - D).toNat - i) = (b - D).toNat by omega]
      rw [h]
      rw [if_neg]
      intro hc
      rcases hd with hd | rfl
      · refine hd (S + BitVec.ofNat 64 (b - D).toNat) ⟨?_, by unfold InBlk; omega⟩
        unfold InBlk
        rw [BFL.off_toNat _ _ hlt]
        omega
      · rw [BFL.off_toNat _ _ hlt] at hc; omega
    · rw [if_neg h2, if_neg (by omega), h b, if_neg (by omega)]
  · rw [if_neg h1, if_neg (by omega), h b, if_pos (by omega), if_pos (by omega)]

section
variable (sym : Nat → Word)

theorem gp_move (n : Nat) (hn : n = 1 ∨ n = 2 ∨ n = 4 ∨ n = 8) (a c : MemOp) (v : VSt) (A C : Word)
    (ha : ea sym v.s a = A) (hc : ∀ d : Word, ea sym (v.s.setR .dx d) c = C) (l : List VIns) :
    ∃ v1, vexecs sym (.gp (.mov n (.mem a) (.reg .dx)) :: .gp (.mov n (.reg .dx) (.mem c)) :: l) v = vexecs sym l v1 ∧
      v1.s.m = moved v.s.m A C n ∧ ∀ q, q ≠ .dx → v1.s.r q = v.s.r q := by
  refine ⟨_, rfl, ?_, fun q hq => setR_other _ _ _ _ hq⟩
  funext b
  simp only [hc, X86.get, ha]
  rw [setR_same, zx_put n hn]
  show wr v.s.m C n _ b = _
  unfold wr moved
  split
  · rename_i h
    rw [zx_byte _ _ _ (by omega) h, rd_byte _ _ _ _ (by omega) h]
  · rfl

theorem x_move (a c : MemOp) (v : VSt) (A C : Word) (ha : ea sym v.s a = A) (hc : ea sym v.s c = C) (l : List VIns) :
    ∃ v1, vexecs sym (.ldx a :: .stx c :: l) v = vexecs sym l v1 ∧
      v1.s.m = moved v.s.m A C 16 ∧ ∀ q, v1.s.r q = v.s.r q := by
  refine ⟨_, rfl, ?_, fun q => rfl⟩
  funext b
  simp only [hc, ha]
  rfl

theorem copyFrom_run (sofs : Int) (sptr : Reg) (dofs : Int) (dptr : Reg) (hsp : sptr ≠ .dx) (hdp : dptr ≠ .dx) (sz : Nat) (hsz : sz < 2 ^ 63)
    (m0 : Mem) (S D : Word) (hd : Disj S sz D sz ∨ S = D) :
    ∀ (i : Nat), i ≤ sz → ∀ (v : VSt), Done m0 S D i v.s.m → v.s.r sptr + BitVec.ofInt 64 sofs = S → v.s.r dptr + BitVec.ofInt 64 dofs = D →
    ∃ v', vexecs sym (copyFrom sofs sptr dofs dptr sz i) v = some v' ∧ Done m0 S D sz v'.s.m ∧ (∀ q, q ≠ .dx → v'.s.r q = v.s.r q) := by
  intro i hi
  induction i using copyFrom.induct (sz := sz) with
  | case1 i h1 h2 ih =>
    intro v hm hS hD
    rw [copyFrom, if_pos h1, if_pos h2]
    obtain ⟨v1, e1, e2, e3⟩ := x_move sym (.off sptr (i + sofs)) (.off dptr (i + dofs)) v (S + BitVec.ofNat 64 i) (D + BitVec.ofNat 64 i)
      (by simp only [ea, base_off, hS]) (by simp only [ea, base_off, hD]) (copyFrom sofs sptr dofs dptr sz (i + 16))
    rw [e1]
    obtain ⟨v2, f1, f2, f3⟩ := ih (by omega) v1 (by rw [e2]; exact done_step hd (by omega) hsz hm) (by rw [e3, hS]) (by rw [e3, hD])
    exact ⟨v2, f1, f2, fun q hq => (f3 q hq).trans (e3 q)⟩
  | case2 i h1 h2 ih =>
    intro v hm hS hD
    have hp := p2_cases (sz - i) (by omega)
    rw [copyFrom, if_pos h1, if_neg h2]
    obtain ⟨v1, e1, e2, e3⟩ := gp_move sym (p2 (sz - i)) hp.1 (.off sptr (i + sofs)) (.off dptr (i + dofs)) v (S + BitVec.ofNat 64 i) (D + BitVec.ofNat 64 i)
      (by simp only [ea, base_off, hS]) (fun d => by simp only [ea, setR_other _ _ _ _ hdp, base_off, hD]) (copyFrom sofs sptr dofs dptr sz (i + p2 (sz - i)))
    rw [e1]
    obtain ⟨v2, f1, f2, f3⟩ := ih (by omega) v1 (by rw [e2]; exact done_step hd (by omega) hsz hm) (by rw [e3 _ hsp, hS]) (by rw [e3 _ hdp, hD])
    exact ⟨v2, f1, f2, fun q hq => (f3 q hq).trans (e3 q hq)⟩
  | case3 i h1 =>
    intro v hm _ _
    rw [copyFrom, if_neg h1]
    refine ⟨v, rfl, ?_, fun _ _ => rfl⟩
    rw [show sz = i by omega]; exact hm

/-- The first `i` bytes have been cleared. -/
def Zeroed (m0 : Mem) (D : Word) (i : Nat) (m : Mem) : Prop := ∀ b, m b = if (b - D).toNat < i then 0 else m0 b

theorem zeroed_step {m0 m : Mem} {D : Word} {i j n : Nat} (hj : j ≤ i) (hi : i ≤ j + n) (hs : j + n < 2 ^ 63) (h : Zeroed m0 D i m) :
    Zeroed m0 D (j + n) (fun b => if (b - (D + BitVec.ofNat 64 j)).toNat < n then 0 else m b) := by
  intro b
  dsimp only
  rw [sub_off _ _ _ (by omega)]
  have hlt := (b - D).isLt
  by_cases h1 : j ≤ (b - D).toNat
  · rw [if_pos h1]
    by_cases h2 : (b - D).toNat - j < n
    · rw [if_pos h2, if_pos (by omega)]
    · rw [if_neg h2, if_neg (by omega), h b, if_neg (by omega)]
  · rw [if_neg h1, if_neg (by omega), h b, if_pos (by omega), if_pos (by omega)]

theorem zeroBig_run (dofs : Int) (dptr : Reg) (sz : Nat) (h16 : 16 ≤ sz) (hsz : sz < 2 ^ 63) (m0 : Mem) (D : Word) :
    ∀ (i : Nat), i ≤ sz → ∀ (v : VSt), Zeroed m0 D i v.s.m → (∀ k, v.x k = 0) → v.s.r dptr + BitVec.ofInt 64 dofs = D →
    ∃ v', vexecs sym (zeroBig dofs dptr sz i h16) v = some v' ∧ Zeroed m0 D sz v'.s.m ∧ (∀ q, v'.s.r q = v.s.r q) := by
  intro i hi
  induction i using zeroBig.induct (sz := sz) (h := h16) with
  | case1 i h1 j ih =>
    intro v hm hx hD
    rw [zeroBig, if_pos h1]
    have hj : j ≤ i ∧ i ≤ j + 16 ∧ j + 16 ≤ sz := by
      by_cases h : sz < i + 16
      · have e : j = sz - 16 := dif_pos h
        omega
      · have e : j = i := dif_neg h
        omega
    have key := zeroed_step (j := j) (n := 16) hj.1 hj.2.1 (by omega) hm
    simp only [vexecs, vexec, Option.bind_some]
    show ∃ v', vexecs sym (zeroBig dofs dptr sz (j + 16) h16) _ = _ ∧ _
    have hea : ea sym v.s (.off dptr (j + dofs)) = D + BitVec.ofNat 64 j := by simp only [ea, base_off, hD]
    obtain ⟨v2, f1, f2, f3⟩ := ih hj.2.2 { v with s := { v.s with
      m := fun b => if (b - ea sym v.s (.off dptr (j + dofs))).toNat < 16 then v.x (b - ea sym v.s (.off dptr (j + dofs))).toNat else v.s.m b } }
      (by simp only [hea, hx]; exact key) hx hD
    exact ⟨v2, f1, f2, f3⟩
  | case2 i h1 =>
    intro v hm _ _
    rw [zeroBig, if_neg h1]
    refine ⟨v, rfl, ?_, fun _ => rfl⟩
    rw [show sz = i by omega]; exact hm

theorem zeroSmall_run (dofs : Int) (dptr : Reg) (sz : Nat) (hsz : sz < 2 ^ 63) (m0 : Mem) (D : Word) :
    ∀ (i : Nat), i ≤ sz → ∀ (v : VSt), Zeroed m0 D i v.s.m → v.s.r .ax = 0 → v.s.r dptr + BitVec.ofInt 64 dofs = D →
    ∃ v', vexecs sym (zeroSmall dofs dptr sz i) v = some v' ∧ Zeroed m0 D sz v'.s.m ∧ (∀ q, v'.s.r q = v.s.r q) := by
  intro i hi
  induction i using zeroSmall.induct (sz := sz) with
  | case1 i h1 ih =>
    intro v hm hx hD
    have hp := p2_cases (sz - i) (by omega)
    rw [zeroSmall, if_pos h1]
    have key := zeroed_step (j := i) (n := p2 (sz - i)) (Nat.le_refl _) (by omega) (by omega) hm
    have hea : ea sym v.s (.off dptr (i + dofs)) = D + BitVec.ofNat 64 i := by simp only [ea, base_off, hD]
    simp only [vexecs, vexec, exec, put', Option.map_some, Option.bind_some, hea, X86.get, hx]
    obtain ⟨v2, f1, f2, f3⟩ := ih (by omega) { v with s := { v.s with m := wr v.s.m (D + BitVec.ofNat 64 i) (p2 (sz - i)) (zx (p2 (sz - i)) 0) } }
      (by
        have : wr v.s.m (D + BitVec.ofNat 64 i) (p2 (sz - i)) (zx (p2 (sz - i)) 0) =
            (fun b => if (b - (D + BitVec.ofNat 64 i)).toNat < p2 (sz - i) then 0 else v.s.m b) := by
          funext b
          unfold wr
          split
          · rw [show zx (p2 (sz - i)) 0 = 0 by simp [zx]]; simp
          · rfl
        show Zeroed m0 D _ (wr v.s.m _ _ _)
        rw [this]; exact key) hx hD
    exact ⟨v2, f1, f2, f3⟩
  | case2 i h1 =>
    intro v hm _ _
    rw [zeroSmall, if_neg h1]
    refine ⟨v, rfl, ?_, fun _ => rfl⟩
    rw [show sz = i by omega]; exact hm

/-- The first `i` bytes hold the low bytes of `x`. -/
def Stored (m0 : Mem) (D : Word) (x : Word) (i : Nat) (m : Mem) : Prop :=
  ∀ b, m b = if (b - D).toNat < i then (x >>> (8 * (b - D).toNat)).setWidth 8 else m0 b

theorem storeFrom_run (reg : Reg) (sz : Nat) (dofs : Int) (dptr : Reg) (hr : dptr ≠ reg) (h8 : sz ≤ 8) (m0 : Mem) (D x : Word) :
    ∀ (i : Nat), i < sz → ∀ (s : St), Stored m0 D x i s.m → s.r reg = x >>> (8 * i) → s.r dptr + BitVec.ofInt 64 dofs = D →
    ∃ s', execs sym (storeFrom reg sz dofs dptr i) s = some s' ∧ Stored m0 D x sz s'.m ∧ (∀ q, q ≠ reg → s'.r q = s.r q) := by
  intro i
  induction i using storeFrom.induct (sz := sz) with
  | case1 i ih =>
    intro hi s hm hx hD
    have hp := p2_cases (sz - i) (by omega)
    rw [storeFrom]
    have hea : ea sym s (.off dptr (i + dofs)) = D + BitVec.ofNat 64 i := by simp only [ea, base_off, hD]
    have key : Stored m0 D x (i + p2 (sz - i)) (wr s.m (D + BitVec.ofNat 64 i) (p2 (sz - i)) (zx (p2 (sz - i)) (x >>> (8 * i)))) := by
      intro b
      unfold wr
      rw [sub_off _ _ _ (by omega)]
      have hlt := (b - D).isLt
      by_cases h1 : i ≤ (b - D).toNat
      · rw [if_pos h1]
        by_cases h2 : (b - D).toNat - i < p2 (sz - i)
        · rw [if_pos h2, if_pos (by omega), zx_byte _ _ _ (by omega) h2, ← BitVec.shiftRight_add]
          rw [show 8 * i + 8 * ((b - D).toNat - i) = 8 * (b - D).toNat by omega]
        · rw [if_neg h2, if_neg (by omega), hm b, if_neg (by omega)]
      · rw [if_neg h1, if_neg (by omega), hm b, if_pos (by omega), if_pos (by omega)]
    simp only [execs, exec, put', Option.bind_some, hea, X86.get, hx]
    by_cases hend : i + p2 (sz - i) ≥ sz
    · rw [if_pos hend]
      refine ⟨_, rfl, ?_, fun _ _ => rfl⟩
      rw [show i + p2 (sz - i) = sz by omega] at key
      exact key
    · rw [if_neg hend]
      simp only [execs, exec, Option.bind_some]
      obtain ⟨s2, f1, f2, f3⟩ := ih (by omega) (by omega)
        ((({ s with m := wr s.m (D + BitVec.ofNat 64 i) (p2 (sz - i)) (zx (p2 (sz - i)) (x >>> (8 * i))) } : St).setR reg
          (put 8 (s.r reg) (shOp .shr 8 (s.r reg) (p2 (sz - i) * 8 % (if 8 = 8 then 64 else 32))))).noFlags)
        key (by
          show (St.setR _ reg _).r reg = _
          rw [setR_same, put_of_rop _ _ _ (Or.inr rfl), zx8]
          simp only [shOp, zx8, if_true, hx]
          rw [Nat.mod_eq_of_lt (by omega), ← BitVec.shiftRight_add]
          congr 1; omega) (by
          show (St.setR _ reg _).r dptr + _ = _
          rw [setR_other _ _ _ _ hr]; exact hD)
      exact ⟨s2, f1, f2, fun q hq => (f3 q hq).trans (setR_other _ _ _ _ hq)⟩

end
end Slimcc.MemL
