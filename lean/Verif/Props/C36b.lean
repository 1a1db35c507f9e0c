import Verif.Model.Prologue
import Verif.Props.C36
/-! C36: the frame that the prologue makes, and that the epilogue undoes. -/
set_option autoImplicit false
namespace Slimcc.Props
open Slimcc.Prologue

theorem load8_ext {m m' : BitVec 64 → BitVec 8} {a : BitVec 64} (h : ∀ k : Nat, k < 8 → m (a + BitVec.ofNat 64 k) = m' (a + BitVec.ofNat 64 k)) :
    load8 m a = load8 m' a := by
  have h0 := h 0 (by decide)
  have e0 : a + BitVec.ofNat 64 0 = a := by simp
  rw [e0] at h0
  simp only [load8]
  rw [h0, show (7 : BitVec 64) = BitVec.ofNat 64 7 from rfl, show (6 : BitVec 64) = BitVec.ofNat 64 6 from rfl,
    show (5 : BitVec 64) = BitVec.ofNat 64 5 from rfl, show (4 : BitVec 64) = BitVec.ofNat 64 4 from rfl,
    show (3 : BitVec 64) = BitVec.ofNat 64 3 from rfl, show (2 : BitVec 64) = BitVec.ofNat 64 2 from rfl,
    show (1 : BitVec 64) = BitVec.ofNat 64 1 from rfl, h 7 (by decide), h 6 (by decide), h 5 (by decide), h 4 (by decide),
    h 3 (by decide), h 2 (by decide), h 1 (by decide)]

theorem store8_at (m : BitVec 64 → BitVec 8) (a v : BitVec 64) (k : Nat) (hk : k < 8) :
    store8 m a v (a + BitVec.ofNat 64 k) = v.extractLsb' (8 * k) 8 := by
  have : (a + BitVec.ofNat 64 k - a).toNat = k := by
    rw [BitVec.add_comm, BitVec.add_sub_cancel, BitVec.toNat_ofNat]; omega
  rw [store8, this, if_pos hk]

theorem load8_store8 (m : BitVec 64 → BitVec 8) (a v : BitVec 64) : load8 (store8 m a v) a = v := by
  have h := fun k hk => store8_at m a v k hk
  have e0 := h 0 (by decide)
  have z : a + BitVec.ofNat 64 0 = a := by simp
  rw [z] at e0
  simp only [load8]
  rw [e0, show (7 : BitVec 64) = BitVec.ofNat 64 7 from rfl, show (6 : BitVec 64) = BitVec.ofNat 64 6 from rfl,
    show (5 : BitVec 64) = BitVec.ofNat 64 5 from rfl, show (4 : BitVec 64) = BitVec.ofNat 64 4 from rfl,
    show (3 : BitVec 64) = BitVec.ofNat 64 3 from rfl, show (2 : BitVec 64) = BitVec.ofNat 64 2 from rfl,
    show (1 : BitVec 64) = BitVec.ofNat 64 1 from rfl, h 7 (by decide), h 6 (by decide), h 5 (by decide), h 4 (by decide),
    h 3 (by decide), h 2 (by decide), h 1 (by decide)]
  apply BitVec.eq_of_getLsbD_eq
  intro i hi
  simp only [BitVec.getLsbD_cast, BitVec.getLsbD_append, BitVec.getLsbD_extractLsb']
  repeat' split
  all_goals
    rw [decide_eq_true (by omega), Bool.true_and]
    congr 1
    omega

theorem store8_other (m : BitVec 64 → BitVec 8) (a v x : BitVec 64) (h : a.toNat + 8 ≤ x.toNat) : store8 m a v x = m x := by
  have : ¬ (x - a).toNat < 8 := by rw [BitVec.toNat_sub]; omega
  rw [store8, if_neg this]

theorem and_neg (x : BitVec 64) (k : Nat) (hk : k < 64) :
    (x &&& -(BitVec.ofNat 64 (2 ^ k))).toNat = x.toNat / 2 ^ k * 2 ^ k := by
  have hp : 2 ^ k < 2 ^ 64 := Nat.pow_lt_pow_right (by decide) hk
  have hpos : 0 < 2 ^ k := Nat.two_pow_pos k
  have e : (-(BitVec.ofNat 64 (2 ^ k))).toNat = (2 ^ (64 - k) - 1) <<< k := by
    rw [BitVec.toNat_neg, BitVec.toNat_ofNat, Nat.mod_eq_of_lt hp, Nat.mod_eq_of_lt (by omega), Nat.shiftLeft_eq, Nat.sub_mul,
      ← Nat.pow_add, show 64 - k + k = 64 by omega, Nat.one_mul]
  rw [BitVec.toNat_and, e, ← Nat.shiftRight_eq_div_pow, ← Nat.shiftLeft_eq]
  apply Nat.eq_of_testBit_eq
  intro i
  rw [Nat.testBit_and, Nat.testBit_shiftLeft, Nat.testBit_shiftLeft, Nat.testBit_two_pow_sub_one, Nat.testBit_shiftRight]
  by_cases hi : i ≥ k
  · rw [show k + (i - k) = i by omega]
    by_cases h64 : i < 64
    · have : i - k < 64 - k := by omega
      simp [hi, this]
    · have hx : x.toNat.testBit i = false := Nat.testBit_lt_two_pow (Nat.lt_of_lt_of_le x.isLt (Nat.pow_le_pow_right (by decide) (by omega)))
      simp [hx]
  · simp [hi]

/-- A function is entered with the return address at the stack pointer, which is 8 below a multiple of 16, and
enough stack below it. Alignments are powers of two that fit into an `int`. -/
structure Entry (align peak : Nat) (c : Cpu) : Prop where
  pow : ∃ k, 4 ≤ k ∧ k ≤ 30 ∧ align = 2 ^ k
  sp : (c.sp.toNat + 8) % 16 = 0
  room : align + peak + 48 ≤ c.sp.toNat
  top : c.sp.toNat + 8 ≤ 2 ^ 64

theorem sub8 (x : BitVec 64) (h : 8 ≤ x.toNat) : (x - 8).toNat = x.toNat - 8 := by
  rw [BitVec.toNat_sub, show (8 : BitVec 64).toNat = 8 from rfl]; omega

theorem sub_ofNat (x : BitVec 64) (n : Nat) (h : n ≤ x.toNat) : (x - BitVec.ofNat 64 n).toNat = x.toNat - n := by
  have := x.isLt
  have hn : n % 2 ^ 64 = n := Nat.mod_eq_of_lt (by omega)
  rw [BitVec.toNat_sub, BitVec.toNat_ofNat, hn]; omega

/-- What the prologue leaves. -/
theorem prologue_run (align peak : Nat) (c : Cpu) : run (prologue align peak) c =
    (let m := store8 c.mem (c.sp - 8) c.bp
     let s := if align > 16 then (c.sp - 8 - 8) &&& -(BitVec.ofNat 64 align) else c.sp - 8
     ⟨if peak ≠ 0 then s - BitVec.ofNat 64 ((peak + 15) / 16 * 16) else s, c.sp - 8, if align > 16 then s else c.bx,
      if align > 16 then store8 m (c.sp - 8 - 8) c.bx else m, c.ret⟩) := by
  by_cases h : align > 16 <;> by_cases hp : peak ≠ 0 <;>
    simp only [h, hp, prologue, run, if_true, if_false, ne_eq, not_true, not_false_eq_true, List.cons_append, List.nil_append,
      List.foldl_cons, List.foldl_nil, Ins.run, Decidable.not_not] <;> rfl

/-- After the prologue the register from which variables are addressed is aligned as the most demanding variable
needs, below the saved registers and the return address, with the frame between it and the stack pointer, which is
a multiple of 16. Nothing the caller owns has changed. -/
theorem C36_prologue (align peak : Nat) (c : Cpu) (h : Entry align peak c) :
    let c' := run (prologue align peak) c
    align ∣ (base align c').toNat ∧ (base align c').toNat + 8 ≤ c.sp.toNat ∧
    c'.sp.toNat + peak ≤ (base align c').toNat ∧ c'.sp.toNat % 16 = 0 ∧
    ∀ x : BitVec 64, c.sp.toNat ≤ x.toNat → c'.mem x = c.mem x := by
  obtain ⟨⟨k, hk4, hk, rfl⟩, hs, hr, ht⟩ := h
  have hpos : 0 < 2 ^ k := Nat.two_pow_pos k
  have e1 : (c.sp - 8).toNat = c.sp.toNat - 8 := sub8 _ (by omega)
  have e2 : (c.sp - 8 - 8).toNat = c.sp.toNat - 16 := by rw [sub8 _ (by omega), e1]; omega
  have h16 : 16 ∣ 2 ^ k := Nat.pow_dvd_pow 2 hk4
  have e3 : ((c.sp - 8 - 8) &&& -(BitVec.ofNat 64 (2 ^ k))).toNat = (c.sp.toNat - 16) / 2 ^ k * 2 ^ k := by
    rw [and_neg _ _ (by omega), e2]
  have hd : (c.sp.toNat - 16) / 2 ^ k * 2 ^ k ≤ c.sp.toNat - 16 := Nat.div_mul_le_self _ _
  have hd2 : c.sp.toNat - 16 < (c.sp.toNat - 16) / 2 ^ k * 2 ^ k + 2 ^ k := by
    have := Nat.div_add_mod (c.sp.toNat - 16) (2 ^ k)
    have h2 := Nat.mod_lt (c.sp.toNat - 16) hpos
    rw [Nat.mul_comm] at this
    omega
  rw [prologue_run]
  simp only [base]
  by_cases hA : 2 ^ k > 16
  · simp only [hA, if_true]
    rw [e3]
    have hb16 : 16 ∣ (c.sp.toNat - 16) / 2 ^ k * 2 ^ k := Nat.dvd_trans h16 (Nat.dvd_mul_left _ _)
    refine ⟨Nat.dvd_mul_left _ _, by omega, ?_, ?_, ?_⟩
    · by_cases hp : peak ≠ 0
      · rw [if_pos hp, sub_ofNat _ _ (by rw [e3]; omega), e3]; omega
      · rw [if_neg hp, e3]; omega
    · by_cases hp : peak ≠ 0
      · rw [if_pos hp, sub_ofNat _ _ (by rw [e3]; omega), e3]; omega
      · rw [if_neg hp, e3]; omega
    · intro x hx
      rw [store8_other _ _ _ _ (by omega), store8_other _ _ _ _ (by omega)]
  · simp only [hA, if_false]
    rw [e1]
    have hk16 : 2 ^ k = 16 := by have := Nat.le_of_dvd hpos h16; omega
    rw [hk16] at hr ⊢
    refine ⟨by omega, by omega, ?_, ?_, ?_⟩
    · by_cases hp : peak ≠ 0
      · rw [if_pos hp, sub_ofNat _ _ (by rw [e1]; omega), e1]; omega
      · rw [if_neg hp, e1]; omega
    · by_cases hp : peak ≠ 0
      · rw [if_pos hp, sub_ofNat _ _ (by rw [e1]; omega), e1]; omega
      · rw [if_neg hp, e1]; omega
    · intro x hx
      rw [store8_other _ _ _ _ (by omega)]

/-- Whatever the body does below the frame, and wherever it leaves the stack pointer, the epilogue returns to the
return address with the stack pointer, %rbp and (if the function used it) %rbx of the caller. -/
theorem C36_epilogue (align peak : Nat) (c d : Cpu) (h : Entry align peak c)
    (hbp : d.bp = (run (prologue align peak) c).bp)
    (hmem : ∀ x : BitVec 64, (base align (run (prologue align peak) c)).toNat ≤ x.toNat → x.toNat < c.sp.toNat + 8 →
      d.mem x = (run (prologue align peak) c).mem x) :
    let r := run (epilogue align) d
    r.sp = c.sp + 8 ∧ r.bp = c.bp ∧ r.ret = some (load8 c.mem c.sp) ∧ r.bx = (if align > 16 then c.bx else d.bx) ∧ r.mem = d.mem := by
  obtain ⟨-, hb, -, -, hup⟩ := C36_prologue align peak c h
  obtain ⟨⟨k, hk4, hk, rfl⟩, hs, hr, ht⟩ := h
  have hpos : 0 < 2 ^ k := Nat.two_pow_pos k
  have e1 : (c.sp - 8).toNat = c.sp.toNat - 8 := sub8 _ (by omega)
  have e2 : (c.sp - 8 - 8).toNat = c.sp.toNat - 16 := by rw [sub8 _ (by omega), e1]; omega
  have hpr := prologue_run (2 ^ k) peak c
  have hofs : ∀ (a : BitVec 64) (j : Nat), j < 8 → a.toNat + 8 ≤ 2 ^ 64 → (a + BitVec.ofNat 64 j).toNat = a.toNat + j := by
    intro a j hj ha
    rw [BitVec.toNat_add, BitVec.toNat_ofNat, Nat.mod_eq_of_lt (show j < 2 ^ 64 by omega), Nat.mod_eq_of_lt (by omega)]
  have hbp' : d.bp = c.sp - 8 := by rw [hbp, hpr]
  have back : c.sp - 8 + 8 = c.sp := BitVec.sub_add_cancel _ _
  have bk2 : c.sp - 8 + -8 = c.sp - 8 - 8 := (BitVec.sub_eq_add_neg _ _).symm
  -- the saved %rbp
  have lbp : load8 d.mem (c.sp - 8) = c.bp := by
    rw [← load8_store8 c.mem (c.sp - 8) c.bp]
    refine load8_ext fun j hj => ?_
    have hj' := hofs (c.sp - 8) j hj (by omega)
    rw [hmem _ (by omega) (by omega), hpr]
    simp only
    by_cases hA : 2 ^ k > 16
    · rw [if_pos hA, store8_other _ _ _ _ (by omega)]
    · rw [if_neg hA]
  have lret : load8 d.mem c.sp = load8 c.mem c.sp := by
    refine load8_ext fun j hj => ?_
    have hj' := hofs c.sp j hj (by omega)
    rw [hmem _ (by omega) (by omega), hup _ (by omega)]
  have lbx : 2 ^ k > 16 → load8 d.mem (c.sp - 8 - 8) = c.bx := by
    intro hA
    rw [← load8_store8 (store8 c.mem (c.sp - 8) c.bp) (c.sp - 8 - 8) c.bx]
    refine load8_ext fun j hj => ?_
    have hj' := hofs (c.sp - 8 - 8) j hj (by omega)
    have hbase : (base (2 ^ k) (run (prologue (2 ^ k) peak) c)).toNat ≤ c.sp.toNat - 16 := by
      rw [hpr]; simp only [base, if_pos hA]
      rw [and_neg _ _ (by omega), e2]
      exact Nat.div_mul_le_self _ _
    rw [hmem _ (by omega) (by omega), hpr]
    simp only [if_pos hA]
  by_cases hA : 2 ^ k > 16
  · simp only [epilogue, if_pos hA, run, List.cons_append, List.nil_append, List.foldl_cons, List.foldl_nil, Ins.run, hbp']
    rw [lbp, back, lret, bk2, lbx hA]
    simp [hA]
  · simp only [epilogue, if_neg hA, run, List.nil_append, List.foldl_cons, List.foldl_nil, Ins.run, hbp']
    rw [lbp, back, lret]
    simp [hA]

open Slimcc.Spec Slimcc.Frame Slimcc.FrameL in
/-- In every call of every function each variable is at an address that its alignment divides. -/
theorem C36_aligned_in_calls (reuse : Bool) (f : Fn) (h : FrameOk f) (ps : Scope (Var × Int)) (sz : Int)
    (hf : frame reuse f = .ok (ps, sz)) (peak : Nat) (c : Cpu)
    (he : Entry (lvarAlign f.scopes 16).toNat peak c) :
    ∀ p ∈ allVars ps, p.1.byStack = false → p.1.isVla = false →
      p.1.align ∣ ((base (lvarAlign f.scopes 16).toNat (run (prologue (lvarAlign f.scopes 16).toNat peak) c)).toNat : Int) + p.2 := by
  intro p hp hb hv
  have hge := (lvarAlign_ge f.scopes 16).1
  have hd := (C36_prologue _ peak c he).1
  have hd' : lvarAlign f.scopes 16 ∣
      ((base (lvarAlign f.scopes 16).toNat (run (prologue (lvarAlign f.scopes 16).toNat peak) c)).toNat : Int) := by
    have := Int.natCast_dvd_natCast.2 hd
    rwa [Int.toNat_of_nonneg (by omega)] at this
  exact ((C36_aligned reuse f h ps sz hf _ hd') p hp hb).1 hv

/-- A function with a variable of alignment 64, entered with the stack pointer at 0x7ffffff8. -/
def exEntry : Cpu := ⟨0x7ffffff8, 0x80000010, 0x1234, fun a => a.setWidth 8, none⟩
example : Entry 64 40 exEntry := ⟨⟨6, by decide, by decide, by decide⟩, by decide, by decide, by decide⟩
example : (run (prologue 64 40) exEntry).bx = 0x7fffffc0 ∧ (run (prologue 64 40) exEntry).sp = 0x7fffff90 := by decide +kernel

end Slimcc.Props
