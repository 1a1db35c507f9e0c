import Verif.Lemmas.BitField
/-!
C21: writing a bit-field changes only that field and reads back what was written.

`f` is the field: its declared type, its width `f.w` and its bit position `f.bo` in the storage unit.
`1 ≤ f.w` and `f.bo + f.w ≤ 8 * f.ty.size` say that the field is inside a unit of its declared type;
C20_unit shows that the layout establishes this for every structure that is not packed.
-/
set_option autoImplicit false
namespace Slimcc.Props
open Slimcc.Spec Slimcc.Ty Slimcc.X86 Slimcc.Gen Slimcc.BF Slimcc.BFL

/-- A store puts the low `f.w` bits of %rax into the field and changes no other bit of memory,
whatever memory contained; only the work registers change. `l` is where the address of the unit was
saved. -/
theorem C21_store (sym : Nat → Word) (f : BF) (hw : 1 ≤ f.w) (hu : f.bo + f.w ≤ 8 * f.ty.size)
    (stk : Nat) (l : TLoc) (isVoid : Bool) (a : Word) (s : St) (hl : PtrAt (s.r .bp) stk l a s) :
    ∃ s1, execs sym (store f stk l isVoid) s = some s1 ∧
      FieldIs s1.m a f.bo ((s.r .ax).setWidth f.w) ∧
      (∀ b j, j < 8 → ¬ InField a f.bo f.w b j → (s1.m b).getLsbD j = (s.m b).getLsbD j) ∧
      s1.r .bp = s.r .bp ∧ (∀ i, popReg l ≠ .tmp i → s1.r (.tmp i) = s.r (.tmp i)) := by
  obtain ⟨s1, h1, h2, h3, -⟩ := store_run sym f _ stk l isVoid hw hu a s rfl hl
  obtain ⟨ti, hti⟩ := pop_tmp l
  have h8 : f.ty.size ≤ 8 := Nat.le_trans (size_le_rop f.ty) (rop_le f.ty)
  refine ⟨s1, h1, fun i hi => ?_, fun b j hj hn => ?_, ?_, fun i hi => ?_⟩
  · unfold memBit
    rw [h3 _ _ (Nat.mod_lt _ (by omega)), off_toNat _ _ (by omega),
      show 8 * ((f.bo + i) / 8) + (f.bo + i) % 8 = f.bo + i by omega, if_pos (by omega), BitVec.getLsbD_setWidth,
      show f.bo + i - f.bo = i by omega]
    simp [hi]
  · rw [h3 b j hj]; exact if_neg hn
  · exact h2 _ (by simp) (by simp) (by simp) (by rw [hti]; simp)
  · exact h2 _ (by simp) (by simp) (by simp) fun h => hi h.symm

/-- Consequently any other field, in the same unit or elsewhere, keeps its contents, unless it
overlaps the one stored to. -/
theorem C21_other_field (sym : Nat → Word) (f : BF) (hw : 1 ≤ f.w) (hu : f.bo + f.w ≤ 8 * f.ty.size)
    (stk : Nat) (l : TLoc) (isVoid : Bool) (a : Word) (s s1 : St) (hl : PtrAt (s.r .bp) stk l a s)
    (h : execs sym (store f stk l isVoid) s = some s1) (a' : Word) (bo' w' : Nat) (x : BitVec w')
    (hd : ∀ b j, j < 8 → InField a' bo' w' b j → ¬ InField a f.bo f.w b j) (hr : bo' + w' ≤ 2 ^ 64)
    (hx : FieldIs s.m a' bo' x) : FieldIs s1.m a' bo' x := by
  obtain ⟨s2, h1, -, h3, -⟩ := C21_store sym f hw hu stk l isVoid a s hl
  rw [h] at h1; injection h1 with h1; subst h1
  intro i hi
  rw [← hx i hi]
  unfold memBit
  refine h3 _ _ (Nat.mod_lt _ (by omega)) (hd _ _ (Nat.mod_lt _ (by omega)) ?_)
  unfold InField
  rw [off_toNat _ _ (by omega)]
  omega

/-- A load gives the contents of the field, extended according to the signedness of its type, in
%rax: all 64 bits for an unsigned type, the 32 or 64 bits of the register that holds values of the
type for a signed one. The exception is a signed field of an eight-byte type that starts at a byte
boundary and has 8, 16 or 32 bits, see `C21_long_field_not_extended`; there only the low 32 bits are
right. -/
theorem C21_load (sym : Nat → Word) (f : BF) (hw : 1 ≤ f.w) (hu : f.bo + f.w ≤ 8 * f.ty.size)
    (ofs : Int) (s : St) (x : BitVec f.w) (hx : FieldIs s.m (s.r .ax + BitVec.ofInt 64 ofs) f.bo x) :
    ∃ s1, execs sym (load f ofs) s = some s1 ∧ s1.m = s.m ∧ (∀ q, q ≠ .ax → s1.r q = s.r q) ∧
      (f.ty.uns = true → s1.r .ax = fieldVal true x 64) ∧
      (f.ty.uns = false → f.ty.size = 8 → ¬ (f.bo % 8 = 0 ∧ (f.w = 8 ∨ f.w = 16 ∨ f.w = 32)) →
        s1.r .ax = fieldVal false x 64) ∧
      (f.ty.uns = false → (s1.r .ax).setWidth 32 = fieldVal false x 32) := by
  obtain ⟨s1, h1, h2, h3, h4, h5, h6⟩ := load_run sym f ofs hw hu s x hx
  refine ⟨s1, h1, h2, h3, h4, fun hun hsz hex => h6 hun hsz ?_, h5⟩
  by_cases h64 : f.w = 64
  · exact Or.inr h64
  · refine Or.inl ?_
    unfold alt
    split
    · rename_i hb
      have hb : f.bo % 8 = 0 := by omega
      simp only [hb, true_and] at hex
      simp [altTy, h64, show f.w ≠ 8 by omega, show f.w ≠ 16 by omega, show f.w ≠ 32 by omega]
    · rfl

/-- Storing and then loading through the same address gives the stored value, truncated to the width
of the field and extended. -/
theorem C21_store_load (sym : Nat → Word) (f : BF) (hw : 1 ≤ f.w) (hu : f.bo + f.w ≤ 8 * f.ty.size)
    (stk : Nat) (l : TLoc) (isVoid : Bool) (a : Word) (s s1 s2 : St) (hl : PtrAt (s.r .bp) stk l a s)
    (h : execs sym (store f stk l isVoid) s = some s1) (ofs : Int) (hm : s2.m = s1.m)
    (ha : s2.r .ax + BitVec.ofInt 64 ofs = a) :
    ∃ s3, execs sym (load f ofs) s2 = some s3 ∧
      (f.ty.uns = true → s3.r .ax = fieldVal true ((s.r .ax).setWidth f.w) 64) ∧
      (f.ty.uns = false → f.ty.size = 8 → ¬ (f.bo % 8 = 0 ∧ (f.w = 8 ∨ f.w = 16 ∨ f.w = 32)) →
        s3.r .ax = fieldVal false ((s.r .ax).setWidth f.w) 64) ∧
      (f.ty.uns = false → (s3.r .ax).setWidth 32 = fieldVal false ((s.r .ax).setWidth f.w) 32) := by
  obtain ⟨s4, h1, h2, -⟩ := C21_store sym f hw hu stk l isVoid a s hl
  rw [h] at h1; injection h1 with h1; subst h1
  obtain ⟨s3, g1, -, -, g4⟩ := C21_load sym f hw hu ofs s2 ((s.r .ax).setWidth f.w) (by rw [hm, ha]; exact h2)
  exact ⟨s3, g1, g4⟩

/-- The value of the assignment itself is what a load of the field would give; the exception is a
field of an eight-byte type that starts at a byte boundary and has 32 bits, or is signed and has 8 or
16, see `C21_assigned_long_not_truncated`. -/
theorem C21_assigned_value (sym : Nat → Word) (f : BF) (hw : 1 ≤ f.w) (hu : f.bo + f.w ≤ 8 * f.ty.size)
    (stk : Nat) (l : TLoc) (a : Word) (s : St) (hl : PtrAt (s.r .bp) stk l a s) :
    ∃ s1, execs sym (store f stk l false) s = some s1 ∧
      (f.ty.size ≠ 8 → (s1.r .ax).setWidth 32 = fieldVal f.ty.uns ((s.r .ax).setWidth f.w) 32) ∧
      (f.ty.size = 8 → ¬ (f.bo % 8 = 0 ∧ (f.w = 32 ∨ (f.ty.uns = false ∧ (f.w = 8 ∨ f.w = 16)))) →
        s1.r .ax = fieldVal f.ty.uns ((s.r .ax).setWidth f.w) 64) ∧
      (f.ty.kind = .bool → f.ty.uns = true → s1.r .ax = fieldVal true ((s.r .ax).setWidth f.w) 64) := by
  obtain ⟨s1, h1, -, -, h4, h5, h6, h7, h8⟩ := store_run sym f _ stk l false hw hu a s rfl hl
  have hnone : ¬ f.bo % 8 = 0 ∨ (f.w ≠ 8 ∧ f.w ≠ 16 ∧ f.w ≠ 32 ∧ f.w ≠ 64) → (alt f).isNone := by
    intro h
    unfold alt
    split
    · have h := h.resolve_left (by omega)
      simp [altTy, h]
    · rfl
  refine ⟨s1, h1, ?_, ?_, ?_⟩
  · intro _
    cases hun : f.ty.uns with
    | true => exact h6 rfl hun
    | false => exact h7 rfl hun
  · intro hsz hex
    cases hun : f.ty.uns with
    | true =>
      by_cases h32 : f.w = 32
      · refine h5 rfl hun h32 (hnone (Or.inl fun h => hex ⟨h, Or.inl h32⟩))
      · exact h4 rfl hun h32
    | false =>
      refine h8 rfl hun hsz ?_
      by_cases h64 : f.w = 64
      · exact Or.inr h64
      · refine Or.inl (hnone ?_)
        by_cases hb : f.bo % 8 = 0
        · rw [hun] at hex
          simp only [hb, true_and] at hex
          omega
        · exact Or.inl hb
  · intro hb hun
    refine h4 rfl hun ?_
    have : f.ty.size = 1 := by simp [ITy.size, hb, IKind.size]
    omega

/-- A concrete case: `int x : 5` at bit 3 of a unit whose bytes are all 0xff, address saved in a
register; storing 9 leaves 0x4f in the first byte and reads back as 9; storing 21 reads back as -11. -/
def exBF : BF := ⟨ty_int, 5, 3⟩
def exBFState (v : Int) : St where
  r := fun q => if q = .ax then BitVec.ofInt 64 v else if q = .tmp 1 then 4096 else 0
  m := fun _ => 0xff
  f := none

example : 1 ≤ exBF.w ∧ exBF.bo + exBF.w ≤ 8 * exBF.ty.size ∧
    PtrAt ((exBFState 9).r .bp) 0 (.reg 1) 4096 (exBFState 9) := ⟨by decide, by decide, rfl⟩
example : (execs (fun _ => 0) (store exBF 0 (.reg 1) true) (exBFState 9)).map
    (fun s => (s.m 4096, s.m 4097)) = some (0x4f, 0xff) := by decide +kernel
example : (execs (fun _ => 0) (store exBF 0 (.reg 1) false) (exBFState 21)).map
    (fun s => (s.r .ax).setWidth 32) = some (BitVec.ofInt 32 (-11)) := by decide +kernel

/-- Departure: with `struct { long x : 8; } s` and `s.x == -1`, the expression `s.x` has the value
4294967295 instead of -1: the field is loaded by `movsbl`, which does not reach the upper half of
%rax, and the expression has type `long`. -/
theorem C21_long_field_not_extended :
    FieldIs (exBFState 4096).m ((exBFState 4096).r .ax + BitVec.ofInt 64 0) 0 (BitVec.ofInt 8 (-1)) ∧
    (execs (fun _ => 0) (load ⟨ty_long, 8, 0⟩ 0) (exBFState 4096)).map (fun s => (s.r .ax).toInt) = some 4294967295 ∧
    (fieldVal false (BitVec.ofInt 8 (-1)) 64).toInt = -1 := by
  refine ⟨?_, by decide +kernel, by decide⟩
  intro i hi
  have : memBit (exBFState 4096).m ((exBFState 4096).r .ax + BitVec.ofInt 64 0) (0 + i) = (0xff : BitVec 8).getLsbD ((0 + i) % 8) := rfl
  rw [this, show (0 + i) % 8 = i by omega]
  rfl

/-- Departure: with `struct { unsigned long x : 32; } s`, the value of `(s.x = 0x100000002)` is
0x100000002 although 2 is what the field then holds. -/
theorem C21_assigned_long_not_truncated :
    (execs (fun _ => 0) (store ⟨ty_ulong, 32, 0⟩ 0 (.reg 1) false) (exBFState 0x100000002)).map
      (fun s => ((s.r .ax).toNat, rd s.m 4096 4)) = some (0x100000002, 2) := by decide +kernel

/-- Departure: in a packed structure a field can cross the end of its unit (C20_packed_straddles), and
then both accesses are wrong: for `int x : 20` at bit 24, a load of memory filled with ones
shifts by a negative count and gives 0xff instead of -1, and a store of 0 leaves the bits of the field
beyond the unit as they were. -/
theorem C21_packed_straddling_wrong :
    (execs (fun _ => 0) (load ⟨ty_int, 20, 24⟩ 0) (exBFState 4096)).map (fun s => s.r .ax) ≠
      some (fieldVal false (BitVec.ofInt 20 (-1)) 32 |>.setWidth 64) ∧
    (execs (fun _ => 0) (store ⟨ty_int, 20, 24⟩ 0 (.reg 1) true) (exBFState 0)).map
      (fun s => s.m (4096 + 4)) = some 0xff := by decide +kernel

end Slimcc.Props
