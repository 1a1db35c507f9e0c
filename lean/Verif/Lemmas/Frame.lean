import Verif.Spec.Compiled
/-! Frames whose variables are at disjoint offsets. -/
set_option autoImplicit false
namespace Slimcc
open Slimcc.Spec Slimcc.X86

theorem ofInt64_inj {a b : Int} (h : BitVec.ofInt 64 a = BitVec.ofInt 64 b) (hd : a - b < 2 ^ 64 ∧ b - a < 2 ^ 64) : a = b := by
  have h1 := congrArg BitVec.toNat h
  rw [BitVec.toNat_ofInt, BitVec.toNat_ofInt] at h1
  have e : (2 : Int) ^ 64 = 18446744073709551616 := by decide
  have e' : ((2 ^ 64 : Nat) : Int) = 18446744073709551616 := by decide
  rw [e] at hd
  rw [e'] at h1
  omega

theorem inBlk_int (bp : Word) (a : Int) (n : Nat) (c : Word) (h : InBlk (bp + BitVec.ofInt 64 a) n c) :
    ∃ i : Int, 0 ≤ i ∧ i < n ∧ c = bp + BitVec.ofInt 64 (a + i) := by
  refine ⟨((c - (bp + BitVec.ofInt 64 a)).toNat : Int), by omega, by unfold InBlk at h; omega, ?_⟩
  rw [BitVec.ofInt_add, ← BitVec.add_assoc]
  have : BitVec.ofInt 64 ((c - (bp + BitVec.ofInt 64 a)).toNat : Int) = c - (bp + BitVec.ofInt 64 a) := by
    rw [BitVec.ofInt_natCast, BitVec.ofNat_toNat, BitVec.setWidth_eq]
  rw [this, BitVec.add_comm, BitVec.sub_add_cancel]

theorem disj_frame (bp : Word) (a b : Int) (n k : Nat) (h : a + n ≤ b ∨ b + k ≤ a) (ha : -2 ^ 62 ≤ a ∧ a + n ≤ 2 ^ 62)
    (hb : -2 ^ 62 ≤ b ∧ b + k ≤ 2 ^ 62) : Disj (bp + BitVec.ofInt 64 a) n (bp + BitVec.ofInt 64 b) k := by
  rintro c ⟨h1, h2⟩
  obtain ⟨i, i0, i1, hi⟩ := inBlk_int bp a n c h1
  obtain ⟨j, j0, j1, hj⟩ := inBlk_int bp b k c h2
  have e : BitVec.ofInt 64 (a + i) = BitVec.ofInt 64 (b + j) := by
    have := hi.symm.trans hj
    have h3 := congrArg (fun x => x - bp) this
    simp only [BitVec.add_comm bp, BitVec.add_sub_cancel] at h3
    exact h3
  have e62 : (2 : Int) ^ 62 = 4611686018427387904 := by decide
  have e64 : (2 : Int) ^ 64 = 18446744073709551616 := by decide
  rw [e62] at ha hb
  have := ofInt64_inj e (by rw [e64]; omega)
  omega

/-- Variables in a frame at disjoint offsets, above the temporaries. -/
theorem frame_ok (E : Env) (ofs : Nat → Int) (hloc : ∀ x, E.dom x → E.loc x = .frame (ofs x))
    (hin : ∀ x, E.dom x → -(E.stk : Int) ≤ ofs x ∧ ofs x + (E.size x : Int) ≤ 0)
    (hdis : ∀ x y, E.dom x → E.dom y → x ≠ y → ofs x + (E.size x : Int) ≤ ofs y ∨ ofs y + (E.size y : Int) ≤ ofs x)
    (hroom : (E.stk + 8 * E.K : Int) ≤ 2 ^ 62) : E.Ok := by
  have e62 : (2 : Int) ^ 62 = 4611686018427387904 := by decide
  have ad : ∀ x, E.dom x → E.addr x = E.bp + BitVec.ofInt 64 (ofs x) := fun x hx => by unfold Env.addr; rw [hloc x hx]
  rw [e62] at hroom
  refine ⟨fun x hx => .inl ⟨_, hloc x hx⟩, fun x y hx hy hxy => ?_, fun x k hx hk => ?_, ?_⟩
  · rw [ad x hx, ad y hy]
    have h1 := hin x hx; have h2 := hin y hy
    exact disj_frame _ _ _ _ _ (hdis x y hx hy hxy) (by rw [e62]; omega) (by rw [e62]; omega)
  · rw [ad x hx]
    have h1 := hin x hx
    exact disj_frame _ _ _ _ _ (Or.inr (by omega)) (by rw [e62]; omega) (by rw [e62]; omega)
  · have : (2 : Nat) ^ 64 = 18446744073709551616 := by decide
    rw [this]; omega

end Slimcc
