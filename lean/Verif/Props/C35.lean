import Verif.Lemmas.MemCopy
import Verif.Spec.MemCopy
/-!
C35: block copies and clears touch exactly their range.

`sz` is the number of bytes (an `int` in the compiler), `sofs(sptr)` and `dofs(dptr)` are the addresses
of the blocks. The registers `sptr` and `dptr` are never %rdx in the compiler.
-/
set_option autoImplicit false
namespace Slimcc.Props
open Slimcc.Spec Slimcc.X86 Slimcc.MemCopy Slimcc.MemL

/-- A copy between blocks that do not overlap or that coincide: afterwards each byte of the destination
is the corresponding byte of the source before, all other bytes of memory and all registers except %rdx
and %xmm0 are as they were. -/
theorem C35_copy (sym : Nat → Word) (sofs : Int) (sptr : Reg) (dofs : Int) (dptr : Reg) (hs : sptr ≠ .dx) (hd : dptr ≠ .dx)
    (sz : Nat) (hsz : sz < 2 ^ 31) (v : VSt) (S D : Word) (hS : v.s.r sptr + BitVec.ofInt 64 sofs = S)
    (hD : v.s.r dptr + BitVec.ofInt 64 dofs = D) (hdis : Disj S sz D sz ∨ S = D) :
    ∃ v', vexecs sym (memCopy sofs sptr dofs dptr sz) v = some v' ∧
      (∀ k, k < sz → v'.s.m (D + BitVec.ofNat 64 k) = v.s.m (S + BitVec.ofNat 64 k)) ∧
      (∀ b, ¬ InBlk D sz b → v'.s.m b = v.s.m b) ∧
      (∀ q, q ≠ .dx → v'.s.r q = v.s.r q) := by
  obtain ⟨v', h1, h2, h3⟩ := copyFrom_run sym sofs sptr dofs dptr hs hd sz (by omega) v.s.m S D hdis 0 (by omega) v
    (fun b => by rw [if_neg (by omega)]) hS hD
  refine ⟨v', h1, fun k hk => ?_, fun b hb => ?_, h3⟩
  · rw [h2, BFL.off_toNat _ _ (by omega), if_pos hk]
  · rw [h2]; exact if_neg hb

/-- Every read is inside the source and every write inside the destination. -/
theorem C35_copy_in_range (sofs : Int) (sptr : Reg) (dofs : Int) (dptr : Reg) (sz : Nat) :
    ∀ i ∈ memCopy sofs sptr dofs dptr sz, ∀ m n, (VReads i m n → Within sptr sofs sz m n) ∧ (VWrites i m n → Within dptr dofs sz m n) := by
  have key : ∀ k, k ≤ sz → ∀ i ∈ copyFrom sofs sptr dofs dptr sz k, ∀ m n,
      (VReads i m n → Within sptr sofs sz m n) ∧ (VWrites i m n → Within dptr dofs sz m n) := by
    intro k hk
    induction k using copyFrom.induct (sz := sz) with
    | case1 k h1 h2 ih =>
      rw [copyFrom, if_pos h1, if_pos h2]
      intro i hi m n
      rcases List.mem_cons.1 hi with rfl | hi
      · refine ⟨fun h => ⟨k, h.1.symm, by have := h.2; omega⟩, fun h => h.elim⟩
      · rcases List.mem_cons.1 hi with rfl | hi
        · refine ⟨fun h => h.elim, fun h => ⟨k, h.1.symm, by have := h.2; omega⟩⟩
        · exact ih (by omega) i hi m n
    | case2 k h1 h2 ih =>
      have hp := p2_cases (sz - k) (by omega)
      rw [copyFrom, if_pos h1, if_neg h2]
      intro i hi m n
      rcases List.mem_cons.1 hi with rfl | hi
      · refine ⟨fun h => ⟨k, h.1.symm, by have := h.2; omega⟩, fun h => h.elim⟩
      · rcases List.mem_cons.1 hi with rfl | hi
        · refine ⟨fun h => h.elim, fun h => ⟨k, h.1.symm, by have := h.2; omega⟩⟩
        · exact ih (by omega) i hi m n
    | case3 k h1 => rw [copyFrom, if_neg h1]; intro i hi; cases hi
  exact key 0 (by omega)

/-- A clear: each byte of the block is zero afterwards, all other bytes of memory and all registers
except %rax and %xmm0 are as they were. `dptr` is the frame register in the compiler. -/
theorem C35_zero (sym : Nat → Word) (dofs : Int) (dptr : Reg) (hd : dptr ≠ .ax) (sz : Nat) (hsz : sz < 2 ^ 31) (v : VSt) (D : Word)
    (hD : v.s.r dptr + BitVec.ofInt 64 dofs = D) :
    ∃ v', vexecs sym (memZero dofs dptr sz) v = some v' ∧
      (∀ k, k < sz → v'.s.m (D + BitVec.ofNat 64 k) = 0) ∧
      (∀ b, ¬ InBlk D sz b → v'.s.m b = v.s.m b) ∧
      (∀ q, q ≠ .ax → v'.s.r q = v.s.r q) := by
  have fin : ∀ v' : VSt, Zeroed v.s.m D sz v'.s.m → (∀ k, k < sz → v'.s.m (D + BitVec.ofNat 64 k) = 0) ∧ (∀ b, ¬ InBlk D sz b → v'.s.m b = v.s.m b) := by
    intro v' h
    refine ⟨fun k hk => ?_, fun b hb => ?_⟩
    · rw [h, BFL.off_toNat _ _ (by omega), if_pos hk]
    · rw [h]; exact if_neg hb
  have h0 : Zeroed v.s.m D 0 v.s.m := fun b => by rw [if_neg (by omega)]
  unfold memZero
  split
  · rename_i h16
    obtain ⟨v', h1, h2, h3⟩ := zeroBig_run sym dofs dptr sz h16 (by omega) v.s.m D 0 (by omega) { v with x := fun _ => 0 } h0 (fun _ => rfl) hD
    exact ⟨v', h1, (fin v' h2).1, (fin v' h2).2, fun q _ => h3 q⟩
  · have hx : exec sym (.alu .xor 4 (.reg .ax) (.reg .ax)) v.s = some { v.s.setR .ax 0 with f := none } := xor_self (E := ⟨fun _ => .int, fun _ => False, fun _ => .sym 0, 0, 0, sym, 0⟩) 4 .ax v.s (Or.inl rfl)
    obtain ⟨v', h1, h2, h3⟩ := zeroSmall_run sym dofs dptr sz (by omega) v.s.m D 0 (by omega) { v with s := { v.s.setR .ax 0 with f := none } } h0
      (setR_same v.s .ax 0) (by
        show (v.s.setR .ax 0).r dptr + _ = D
        rw [setR_other _ _ _ _ hd]; exact hD)
    refine ⟨v', ?_, (fin v' h2).1, (fin v' h2).2, fun q hq => (h3 q).trans (setR_other _ _ _ _ hq)⟩
    simp only [vexecs, vexec, hx, Option.map_some, Option.bind_some]
    exact h1

/-- Every write of a clear is inside the block and nothing is read. -/
theorem C35_zero_in_range (dofs : Int) (dptr : Reg) (sz : Nat) :
    ∀ i ∈ memZero dofs dptr sz, ∀ m n, ¬ VReads i m n ∧ (VWrites i m n → Within dptr dofs sz m n) := by
  intro i hi m n
  unfold memZero at hi
  split at hi
  · rename_i h16
    rcases List.mem_cons.1 hi with rfl | hi
    · exact ⟨fun h => h, fun h => h.elim⟩
    · have key : ∀ k, k ≤ sz → i ∈ zeroBig dofs dptr sz k h16 → ¬ VReads i m n ∧ (VWrites i m n → Within dptr dofs sz m n) := by
        intro k hk
        induction k using zeroBig.induct (sz := sz) (h := h16) with
        | case1 k h1 j ih =>
          have hj : j + 16 ≤ sz := by
            by_cases h : sz < k + 16
            · have e : j = sz - 16 := dif_pos h
              omega
            · have e : j = k := dif_neg h
              omega
          rw [zeroBig, if_pos h1]
          intro hi
          rcases List.mem_cons.1 hi with rfl | hi
          · exact ⟨fun h => h, fun h => ⟨j, h.1.symm, by have := h.2; omega⟩⟩
          · exact ih hj hi
        | case2 k h1 => rw [zeroBig, if_neg h1]; intro hi; cases hi
      exact key 0 (by omega) hi
  · rcases List.mem_cons.1 hi with rfl | hi
    · exact ⟨fun h => h, fun h => h.elim⟩
    · have key : ∀ k, k ≤ sz → i ∈ zeroSmall dofs dptr sz k → ¬ VReads i m n ∧ (VWrites i m n → Within dptr dofs sz m n) := by
        intro k hk
        induction k using zeroSmall.induct (sz := sz) with
        | case1 k h1 ih =>
          have hp := p2_cases (sz - k) (by omega)
          rw [zeroSmall, if_pos h1]
          intro hi
          rcases List.mem_cons.1 hi with rfl | hi
          · exact ⟨fun h => h, fun h => ⟨k, h.1.symm, by have := h.2; omega⟩⟩
          · exact ih (by omega) hi
        | case2 k h1 => rw [zeroSmall, if_neg h1]; intro hi; cases hi
      exact key 0 (by omega) hi

/-- Storing the low `sz` bytes of a register (a parameter or a returned structure): exactly these
bytes are written; the register itself is used up. `sz` is at least 1: with 0 a byte would be written, but the
calling convention rejects empty parameters (codegen.c:1181). -/
theorem C35_store_register (sym : Nat → Word) (reg dptr : Reg) (hr : dptr ≠ reg) (dofs : Int) (sz : Nat) (h1 : 1 ≤ sz) (h8 : sz ≤ 8)
    (s : St) (D : Word) (hD : s.r dptr + BitVec.ofInt 64 dofs = D) :
    ∃ s', execs sym (storeGp reg sz dofs dptr) s = some s' ∧
      (∀ k, k < sz → s'.m (D + BitVec.ofNat 64 k) = (s.r reg >>> (8 * k)).setWidth 8) ∧
      (∀ b, ¬ InBlk D sz b → s'.m b = s.m b) ∧
      (∀ q, q ≠ reg → s'.r q = s.r q) := by
  obtain ⟨s', e1, e2, e3⟩ := storeFrom_run sym reg sz dofs dptr hr h8 s.m D (s.r reg) 0 (by omega) s (fun b => by rw [if_neg (by omega)]) (by simp) hD
  refine ⟨s', e1, fun k hk => ?_, fun b hb => ?_, e3⟩
  · rw [e2, BFL.off_toNat _ _ (by omega), if_pos hk]
  · rw [e2]; exact if_neg hb

/-- The sequences for 23 bytes: one 16-byte move and moves of 4, 2 and 1 bytes; for clearing, two
16-byte stores that overlap. -/
example : memCopy 0 .ax 8 .cx 23 =
    [.ldx (.off .ax 0), .stx (.off .cx 8),
     .gp (.mov 4 (.mem (.off .ax 16)) (.reg .dx)), .gp (.mov 4 (.reg .dx) (.mem (.off .cx 24))),
     .gp (.mov 2 (.mem (.off .ax 20)) (.reg .dx)), .gp (.mov 2 (.reg .dx) (.mem (.off .cx 28))),
     .gp (.mov 1 (.mem (.off .ax 22)) (.reg .dx)), .gp (.mov 1 (.reg .dx) (.mem (.off .cx 30)))] := by decide +kernel
example : memZero (-32) .bp 23 = [.zerox, .stx (.off .bp (-32)), .stx (.off .bp (-25))] := by decide +kernel
/-- The hypotheses hold for these blocks. -/
example : Disj (4096 : Word) 23 8192 23 := disj_of_toNat (by decide) (by decide) (by decide)
where
  disj_of_toNat {a b : Word} {n k : Nat} (ha : a.toNat + n ≤ b.toNat) (hb : b.toNat + k ≤ 2 ^ 64) (_ : n ≤ 2 ^ 64) : Disj a n b k := by
    rintro c ⟨h1, h2⟩
    unfold InBlk at h1 h2
    rw [BitVec.toNat_sub] at h1 h2
    have := c.isLt; have := a.isLt; have := b.isLt
    omega

end Slimcc.Props
