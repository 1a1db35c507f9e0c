import Verif.Lemmas.GenOpt2
import Verif.Lemmas.Compile
import Verif.Spec.Access
/-! Objects in memory, as the loads of the code generator see them. -/
set_option autoImplicit false
namespace Slimcc.AGen
open Slimcc Slimcc.Spec Slimcc.Spec.CTy Slimcc.Ty Slimcc.X86 Slimcc.Gen

theorem word_lt (M : Machine) : ∀ (n : Nat) (a : Word), M.word a n < 2 ^ (8 * n)
  | 0, _ => by simp [Machine.word]
  | n + 1, a => by
    have := word_lt M n (a + 1)
    have := (M.mem a).isLt
    unfold Machine.word
    rw [show 8 * (n + 1) = 8 * n + 8 by omega, Nat.pow_add]
    omega

theorem word_bits (M : Machine) : ∀ (n : Nat) (a : Word) (i : Nat),
    (M.word a n).testBit i = (decide (i < 8 * n) && (M.mem (a + BitVec.ofNat 64 (i / 8))).getLsbD (i % 8))
  | 0, a, i => by simp [Machine.word]
  | n + 1, a, i => by
    unfold Machine.word
    rw [show (M.mem a).toNat + 256 * M.word (a + 1) n = 2 ^ 8 * M.word (a + 1) n + (M.mem a).toNat by omega,
      Nat.testBit_two_pow_mul_add _ (M.mem a).isLt]
    split
    · rename_i h
      have h1 : i / 8 = 0 := by omega
      have h2 : i % 8 = i := by omega
      rw [h1, h2]
      simp [BitVec.getLsbD, show i < 8 * (n + 1) by omega]
    · rename_i h
      rw [word_bits M n (a + 1) (i - 8)]
      have e : a + 1 + BitVec.ofNat 64 ((i - 8) / 8) = a + BitVec.ofNat 64 (i / 8) := by
        rw [BitVec.add_assoc]
        congr 1
        have : i / 8 = 1 + (i - 8) / 8 := by omega
        rw [this, BitVec.ofNat_add]
        rfl
      rw [e, show (i - 8) % 8 = i % 8 by omega]
      congr 1
      exact decide_eq_decide.2 (by omega)

/-- Reading the bytes that the machine has. -/
theorem rd_word (M : Machine) (m : Word → BitVec 8) (a : Word) (n : Nat) (hn : n ≤ 8)
    (h : ∀ b, InBlk a n b → m b = M.mem b) : rd m a n = BitVec.ofNat 64 (M.word a n) := by
  rw [rd_congr m M.mem a n hn h]
  apply BitVec.eq_of_getLsbD_eq
  intro i hi
  rw [rd_bits _ _ _ _ hn, BitVec.getLsbD_ofNat, word_bits]
  simp [hi]

/-- The object of type `t` at `a`, as the only variable. -/
def objE (E : Env) (t : CTy) (a : Word) : Env :=
  { E with Γ := fun _ => t, dom := fun x => x = 0, loc := fun _ => .frame 0, bp := a }

theorem objE_addr (E : Env) (t : CTy) (a : Word) : (objE E t a).addr 0 = a := by
  show a + BitVec.ofInt 64 0 = a
  simp

theorem int_word (M : Machine) (t : CTy) (a : Word) :
    zx t.bytes (BitVec.ofInt 64 (M.int t a)) = BitVec.ofNat 64 (M.word a t.bytes) := by
  have hlt := word_lt M t.bytes a
  have h8 : t.bytes ≤ 8 := by rw [bytes_size]; exact (size_le _).1
  have hz : zx t.bytes (BitVec.ofNat 64 (M.word a t.bytes)) = BitVec.ofNat 64 (M.word a t.bytes) := by
    apply BitVec.eq_of_toNat_eq
    rw [zx_toNat _ _ h8, BitVec.toNat_ofNat]
    have : 2 ^ (8 * t.bytes) ≤ 2 ^ 64 := Nat.pow_le_pow_right (by decide) (by omega)
    rw [Nat.mod_eq_of_lt (by omega : M.word a t.bytes < 2 ^ 64), Nat.mod_eq_of_lt hlt]
  unfold Machine.int
  split
  · rename_i hs
    have hb : t ≠ .bool := by intro e; subst e; cases hs
    have hw : 8 * t.bytes ≤ t.width := by cases t <;> first | decide | exact absurd rfl hb
    have := (Low.of_eq t.bytes (M.word a t.bytes : Int) h8).conv t hb hw
    have e := (Low.of_eq t.bytes (conv t (M.word a t.bytes)) h8)
    have : zx t.bytes (BitVec.ofInt 64 (conv t (M.word a t.bytes))) = zx t.bytes (BitVec.ofInt 64 (M.word a t.bytes : Int)) :=
      ((this).zx_eq h8).symm
    rw [this, BitVec.ofInt_natCast, hz]
  · rw [BitVec.ofInt_natCast, hz]

theorem objE_rel (E : Env) (M : Machine) (t : CTy) (a : Word) (m : Word → BitVec 8)
    (h : ∀ b, InBlk a t.bytes b → m b = M.mem b) : Rel (objE E t a) (fun _ => M.int t a) m := by
  rw [rel_iff]
  rintro x rfl
  rw [objE_addr]
  show rd m a t.bytes = zx t.bytes (BitVec.ofInt 64 (M.int t a))
  rw [int_word, rd_word M m a t.bytes (by rw [bytes_size]; exact (size_le _).1) h]

theorem int_range (M : Machine) (t : CTy) (a : Word) (h : t ≠ .bool) : InRange t (M.int t a) := by
  unfold Machine.int
  by_cases hs : t.isSigned = true
  · rw [if_pos hs]; exact conv_range _ _
  · rw [if_neg hs]
    have := word_lt M t.bytes a
    generalize M.word a t.bytes = w at *
    have e : (2 : Nat) ^ (8 * t.bytes) = 2 ^ t.width := by cases t <;> first | rfl | exact absurd rfl h
    rw [e] at this
    unfold InRange CTy.minVal CTy.maxVal
    rw [if_neg hs, if_neg hs]
    have : (w : Int) < ((2 ^ t.width : Nat) : Int) := by exact_mod_cast this
    rw [Int.natCast_pow] at this
    constructor
    · omega
    · have h2 : (((2 : Nat) : Int)) ^ t.width = (2 : Int) ^ t.width := rfl
      omega

section
variable {E : Env}

/-- The load of an object as a type of at most its size. -/
theorem objLoad_calc {M : Machine} {s : St} (t0 : CTy) (a : Word) (hm : ∀ b, InBlk a t0.bytes b → s.m b = M.mem b)
    (t : ITy) (v : Int) (m : MemOp) (hw : t.wf = true) (hr : InRange (cty t) v) (hsz : t.size ≤ t0.bytes)
    (hd : (2 : Int) ^ (8 * t.size) ∣ M.int t0 a - v) (he : ea E.sym s m = a) :
    Calc E [loadExt t m .ax] s fun s' => Reps t v (s'.r .ax) := by
  have := load_calc (E := objE E t0 a) (objE_rel E M t0 a s.m hm) (x := 0) rfl t v m .ax hw hr hsz hd
    (by rw [objE_addr]; exact he) scratch_ax
  exact this.imp fun s' _ q => q.1

theorem ptrLoad_calc {M : Machine} {s : St} (a : Word) (hm : ∀ b, InBlk a 8 b → s.m b = M.mem b)
    (m : MemOp) (he : ea E.sym s m = a) :
    Calc E [loadExt ty_ulong m .ax] s fun s' => s'.r .ax = BitVec.ofNat 64 (M.word a 8) := by
  refine calc_setR' _ s .ax (BitVec.ofNat 64 (M.word a 8)) _ ?_ scratch_ax (setR_same _ _ _)
  have h : rd s.m a 8 = BitVec.ofNat 64 (M.word a 8) := rd_word M s.m a 8 (by omega) hm
  show put' E.sym s 8 (rd s.m (ea E.sym s m) 8) (.reg .ax) = _
  rw [he, h]
  rfl

/-- codegen.c:2738-2756: a conversion of an object loaded at once. -/
theorem castLoad_calc {M : Machine} {s : St} (t0 : CTy) (a : Word) (hm : ∀ b, InBlk a t0.bytes b → s.m b = M.mem b)
    (t u : ITy) (w : Int) (m : MemOp) (hwt : t.wf = true) (hwu : u.wf = true) (hr : InRange (cty u) w) (hsz : u.size = t0.bytes)
    (hd : (2 : Int) ^ (8 * u.size) ∣ M.int t0 a - w) (he : ea E.sym s m = a) (htb : t.kind ≠ .bool) :
    (t.size > u.size → u.uns = false → t.size = 8 →
      Calc E [loadExt64 u m .ax] s fun s' => Reps t (conv (cty t) w) (s'.r .ax)) ∧
    (t.size > u.size → ¬ (u.uns = false ∧ t.size = 8) → ¬ (t.size = 2 ∧ t.uns = true ∧ u.uns = false) →
      Calc E [loadExt u m .ax] s fun s' => Reps t (conv (cty t) w) (s'.r .ax)) ∧
    (¬ t.size > u.size → Calc E [loadExt t m .ax] s fun s' => Reps t (conv (cty t) w) (s'.r .ax)) := by
  have hrel := objE_rel E M t0 a s.m hm
  have hea : ea (objE E t0 a).sym s m = (objE E t0 a).addr 0 := by rw [objE_addr]; exact he
  have hbool : cty t ≠ .bool := fun e => htb ((cty_bool t).1 e)
  have hle := size_le u
  have hsz' : u.size ≤ (objE E t0 a).size 0 := Nat.le_of_eq hsz
  refine ⟨fun hgt hu h8 => ?_, fun hgt hc hc2 => ?_, fun hle' => ?_⟩
  · refine (load64_calc (E := objE E t0 a) hrel (x := 0) rfl u w m .ax hwu hr hsz' hd hea scratch_ax hu).imp fun s' _ q => ?_
    refine Reps.big (by omega) ?_
    rw [q.1, h8]
    exact (Low.of_eq 8 w (by omega)).conv _ hbool (by rw [cty_width t htb]; omega)
  · by_cases h8 : t.size = 8
    · have hu : u.uns = true := by
        cases hu : u.uns
        · exact absurd ⟨hu, h8⟩ hc
        · rfl
      refine (loadx_calc (E := objE E t0 a) hrel (x := 0) rfl u w m .ax hwu hr hsz' hd hea scratch_ax hu (by have := size_cases u; omega)).imp fun s' _ q => ?_
      rw [conv_wider u t w hwu hwt hr hgt (Or.inl hu)]
      exact Reps.of_eq _ _ q.1
    · refine (load_calc (E := objE E t0 a) hrel (x := 0) rfl u w m .ax hwu hr hsz' hd hea scratch_ax).imp fun s' _ q => ?_
      refine ⟨?_, fun h => absurd h htb⟩
      rw [rop_small t h8]
      by_cases h4 : t.size = 4
      · exact q.1.low4.conv _ hbool (by rw [cty_width t htb]; omega)
      · have h2 : t.size = 2 := by have := size_cases t; omega
        have : u.uns = true ∨ t.uns = false := by
          cases hu : t.uns
          · exact Or.inr rfl
          · left
            cases he : u.uns
            · exact absurd ⟨h2, hu, he⟩ hc2
            · rfl
        rw [conv_wider u t w hwu hwt hr hgt this]
        exact q.1.low4
  · refine objLoad_calc t0 a hm t (conv (cty t) w) m hwt (conv_range _ _) (by omega) ?_ he
    have d1 := dvd_low (by omega : t.size ≤ u.size) hd
    have d2 := conv_dvd (cty t) w t.size hbool (by rw [cty_width t htb]; exact Nat.le_refl _)
    exact Int.dvd_trans (Int.dvd_add d1 d2) ⟨1, by omega⟩

/-- `imm_add` on %rax. -/
theorem immAdd_calc (v : Word) (s : St) : Calc E (immAdd 8 .ax v) s fun s' => s'.r .ax = s.r .ax + v := by
  have := immArith_calc (E := E) .add .add 8 (Or.inr rfl) v s rfl
  exact this.imp fun s' _ q => by unfold SameLow at q; simpa [aluOp] using q
theorem immSub_calc (v : Word) (s : St) : Calc E (immSub 8 .ax v) s fun s' => s'.r .ax = s.r .ax - v := by
  have := immArith_calc (E := E) .sub .sub 8 (Or.inr rfl) v s rfl
  exact this.imp fun s' _ q => by unfold SameLow at q; simpa [aluOp] using q
theorem immMul_calc (v : Word) (s : St) : Calc E (immArith .mul 8 v) s fun s' => s'.r .ax = s.r .ax * v := by
  have := immArith_calc (E := E) .mul .imul 8 (Or.inr rfl) v s rfl
  exact this.imp fun s' _ q => by unfold SameLow at q; simpa [aluOp] using q

theorem lea_calc (m : MemOp) (s : St) : Calc E [.lea m .ax] s fun s' => s'.r .ax = ea E.sym s m :=
  calc_setR' _ s .ax _ _ rfl scratch_ax (setR_same _ _ _)

theorem loadVal8_calc (t : ITy) (h : t.size = 8) (v : Word) (s : St) : Calc E (loadVal t v) s fun s' => s'.r .ax = v := by
  have := loadVal_calc (E := E) ty_long v.toInt s rfl (by
    have := v.toInt_lt; have := v.le_toInt
    rw [show cty ty_long = .long from rfl, range_long]; omega)
  rw [BitVec.ofInt_toInt] at this
  have e : loadVal t v = loadVal ty_long v := by
    unfold loadVal; rw [if_pos h, show ty_long.size = 8 from rfl]; rfl
  rw [e]
  refine this.imp fun s' _ q => ?_
  have := q.1.1.eq8
  rw [this, BitVec.ofInt_toInt]

end
end Slimcc.AGen
