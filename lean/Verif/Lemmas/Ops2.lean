import Verif.Lemmas.Ops
/-! The end of binary operators, shifts, division by constants. -/
set_option autoImplicit false
namespace Slimcc
open Slimcc.Spec Slimcc.Spec.CTy Slimcc.Ty Slimcc.X86 Slimcc.Gen

section
variable {E : Env} {P : List Line}

/-- The instructions run, change no memory and only scratch registers and `op`. -/
def CalcR (E : Env) (op : Reg) (l : List Ins) (s : St) (Q : St → Prop) : Prop :=
  ∃ s', execs E.sym l s = some s' ∧ s'.m = s.m ∧ (∀ r, ¬ Scratch r → r ≠ op → s'.r r = s.r r) ∧ Q s'

theorem Calc.toR {l : List Ins} {s : St} {Q : St → Prop} (h : Calc E l s Q) (op : Reg) : CalcR E op l s Q := by
  obtain ⟨s', a, b, c, d⟩ := h; exact ⟨s', a, b, fun r hr _ => c r hr, d⟩

theorem CalcR.imp {op : Reg} {l : List Ins} {s : St} {Q R : St → Prop} (h : CalcR E op l s Q) (hi : ∀ s', s'.m = s.m → Q s' → R s') : CalcR E op l s R := by
  obtain ⟨s', a, b, c, d⟩ := h; exact ⟨s', a, b, c, hi s' b d⟩

theorem calcR_append {op : Reg} {a b : List Ins} {s : St} {Q R : St → Prop} (ha : CalcR E op a s Q)
    (hb : ∀ s1, s1.m = s.m → (∀ r, ¬ Scratch r → r ≠ op → s1.r r = s.r r) → Q s1 → CalcR E op b s1 R) : CalcR E op (a ++ b) s R := by
  obtain ⟨s1, a1, a2, a3, a4⟩ := ha
  obtain ⟨s2, b1, b2, b3, b4⟩ := hb s1 a2 a3 a4
  exact ⟨s2, by rw [execs_append, a1]; exact b1, b2.trans a2, fun r hr hn => (b3 r hr hn).trans (a3 r hr hn), b4⟩

/-- One instruction that sets `op`. -/
theorem calcR_setR (i : Ins) (s : St) (op : Reg) (v : Word) (Q : St → Prop) (f : Option Flags)
    (h : exec E.sym i s = some { s.setR op v with f := f })
    (hq : Q { s.setR op v with f := f }) : CalcR E op [i] s Q := by
  refine ⟨{ s.setR op v with f := f }, ?_, rfl, fun q _ hn => setR_other _ _ _ _ hn, hq⟩
  simp only [execs, h, Option.bind_some]

/-- The dividend and divisor in place, and the quotient and remainder afterwards. -/
theorem div_calc (t : ITy) (a b : Int) (op : Reg) (i : Nat) (hop : op = .tmp i) (s : St) (hw : t.wf = true) (hs : 4 ≤ t.size)
    (ha : InRange (cty t) a) (hb : InRange (cty t) b) (hx : Low t.size a (s.r op)) (hy : Low t.size b (s.r .ax)) (hb0 : b ≠ 0)
    (hq : (cty t).minVal ≤ a.tdiv b ∧ a.tdiv b ≤ (cty t).maxVal) :
    CalcR E op ([.xchg t.size op .ax] ++
      (if t.uns then [.alu .xor 4 (.reg .dx) (.reg .dx), .div false t.size op] else [.cdq t.size, .div true t.size op])) s
      fun s' => Low t.size (a.tdiv b) (s'.r .ax) ∧ Low t.size (a.tmod b) (s'.r .dx) := by
  have hsz : t.size = 4 ∨ t.size = 8 := by rcases big_cases t hw hs with h | h <;> simp [h.1]
  have h8 := (size_le t).1
  subst hop
  refine calcR_append (Q := fun s1 => Low t.size b (s1.r (.tmp i)) ∧ Low t.size a (s1.r .ax)) ?_ ?_
  · refine ⟨(s.setR (.tmp i) (zx t.size (s.r .ax))).setR .ax (zx t.size (s.r (.tmp i))), ?_, rfl, fun r hr hn => ?_, ?_, ?_⟩
    · simp only [execs, exec, Option.bind_some]
      rw [put_of_rop _ _ _ hsz, put_of_rop _ _ _ hsz, zx_zx, zx_zx]
    · rw [setR_other _ _ _ _ (fun e : r = .ax => hr (e ▸ scratch_ax)), setR_other _ _ _ _ hn]
    · rw [setR_other _ _ _ _ (by simp), setR_same]; exact hy.zx
    · rw [setR_same]; exact hx.zx
  · intro s1 _ _ ⟨h1, h2⟩
    have hlow : ∀ z o, Low t.size z (put t.size o (BitVec.ofInt 64 z)) := by
      intro z o; rw [put_of_rop _ _ _ hsz]; exact (Low.of_eq _ _ h8).zx
    have fin : ∀ (sgn : Bool) (s2 : St), divide sgn t.size (s2.r .dx) (s2.r .ax) (s2.r (.tmp i)) = some (BitVec.ofInt 64 (a.tdiv b), BitVec.ofInt 64 (a.tmod b)) →
        CalcR E (.tmp i) [.div sgn t.size (.tmp i)] s2 fun s' => Low t.size (a.tdiv b) (s'.r .ax) ∧ Low t.size (a.tmod b) (s'.r .dx) := by
      intro sgn s2 e
      refine ⟨((s2.setR .ax (put t.size (s2.r .ax) (BitVec.ofInt 64 (a.tdiv b)))).setR .dx (put t.size (s2.r .dx) (BitVec.ofInt 64 (a.tmod b)))).noFlags, ?_, rfl, ?_, ?_, ?_⟩
      · simp only [execs, exec, e, Option.bind_some]
      · intro r hr hn
        simp only [St.noFlags]
        rw [setR_other _ _ _ _ (fun e : r = .dx => hr (e ▸ scratch_dx)), setR_other _ _ _ _ (fun e : r = .ax => hr (e ▸ scratch_ax))]
      · simp only [St.noFlags]
        rw [setR_other _ _ _ _ (by simp), setR_same]; exact hlow _ _
      · simp only [St.noFlags]
        rw [setR_same]; exact hlow _ _
    cases hu : t.uns with
    | true =>
      rw [if_pos rfl]
      have e := div_ok t a b (s1.r .ax) (s1.r (.tmp i)) hw hs hu ha hb h2 h1 hb0
      refine calcR_append (a := [_]) (b := [_]) (Q := fun s2 => s2.r .dx = 0 ∧ s2.r .ax = s1.r .ax ∧ s2.r (.tmp i) = s1.r (.tmp i)) ?_ fun s2 _ _ q => ?_
      · refine (calc_setR _ s1 .dx _ _ none (xor_self 4 .dx s1 (Or.inl rfl)) scratch_dx ⟨setR_same s1 .dx 0, ?_, ?_⟩).toR _
        · exact setR_other s1 .dx .ax 0 (by simp)
        · exact setR_other s1 .dx (.tmp i) 0 (by simp)
      · exact fin false s2 (by rw [q.1, q.2.1, q.2.2]; exact e)
    | false =>
      rw [if_neg (by simp)]
      have e := idiv_ok t a b (s1.r .ax) (s1.r (.tmp i)) (s1.r .dx) hw hs hu ha hb h2 h1 hb0 hq
      refine calcR_append (a := [_]) (b := [_]) (Q := fun s2 => s2.r .dx = put t.size (s1.r .dx) ((sx t.size (s1.r .ax)).sshiftRight 63) ∧ s2.r .ax = s1.r .ax ∧ s2.r (.tmp i) = s1.r (.tmp i)) ?_ fun s2 _ _ q => ?_
      · refine (calc_setR' _ s1 .dx _ _ (by simp only [exec]) scratch_dx ⟨setR_same _ _ _, ?_, ?_⟩).toR _
        · exact setR_other _ _ _ _ (by simp)
        · exact setR_other _ _ _ _ (by simp)
      · exact fin true s2 (by rw [q.1, q.2.1, q.2.2]; exact e)

/-- The end of a binary operator. -/
theorem arithEnd_calc (k : ArOp) (t : ITy) (a b v : Int) (op : Reg) (i : Nat) (hop : op = .tmp i) (s : St) (hw : t.wf = true) (hs : 4 ≤ t.size)
    (ha : InRange (cty t) a) (hb : InRange (cty t) b) (hx : Low t.size a (s.r op)) (hy : Low t.size b (s.r .ax))
    (h : arith (cty t) k a b = .ok v) :
    CalcR E op (arithEnd k t.uns t.size op) s fun s' => Low t.size v (s'.r .ax) := by
  have hsz : t.size = 4 ∨ t.size = 8 := by rcases big_cases t hw hs with h | h <;> simp [h.1]
  have h8 := (size_le t).1
  -- operators that put the result in %rax and commute
  have comm : ∀ (o : Alu), aluOf k = some o → (∀ x y, aluOp o x y = aluOp o y x) →
      CalcR E op [.alu o t.size (.reg op) (.reg .ax)] s fun s' => Low t.size v (s'.r .ax) := by
    intro o ho hc
    refine ((alu_calc o t.size hsz (.reg op) (s.r op) s (by simp only [X86.get]; exact sameLow_zx _ _)).imp fun s' _ q => ?_).toR op
    have := alu_low k o t t.size a b v (s.r op) (s.r .ax) hs (Nat.le_refl _) ho h hx hy
    rw [hc] at this
    exact this.same q
  have hdm : k = .div ∨ k = .mod → b ≠ 0 ∧ ((cty t).minVal ≤ a.tdiv b ∧ a.tdiv b ≤ (cty t).maxVal) ∧ v = if k = .div then a.tdiv b else a.tmod b := by
    rintro (rfl | rfl) <;> simp only [arith] at h <;> split at h
    · cases h
    · split at h
      · rename_i h1 h2; injection h with h; exact ⟨h1, h2, h.symm⟩
      · cases h
    · cases h
    · split at h
      · rename_i h1 h2; injection h with h; exact ⟨h1, h2, h.symm⟩
      · cases h
  cases k with
  | add => exact comm .add rfl fun x y => BitVec.add_comm x y
  | mul => exact comm .imul rfl fun x y => BitVec.mul_comm x y
  | band => exact comm .and rfl fun x y => BitVec.and_comm x y
  | bor => exact comm .or rfl fun x y => BitVec.or_comm x y
  | bxor => exact comm .xor rfl fun x y => BitVec.xor_comm x y
  | sub =>
    have hl := alu_low .sub .sub t t.size a b v (zx t.size (s.r op)) (zx t.size (s.r .ax)) hs (Nat.le_refl _) rfl h hx.zx hy.zx
    unfold arithEnd
    refine calcR_append (a := [_]) (b := [_]) (Q := fun s1 => Low t.size v (s1.r op)) ?_ fun s1 _ _ h1 => ?_
    · refine calcR_setR _ s op _ _ none (by simp only [exec, put', Option.map_some, St.noFlags]; rfl) ?_
      simp only [setR_same, X86.get]
      rw [put_of_rop _ _ _ hsz]
      exact hl.zx
    · refine (calc_setR' _ s1 .ax _ _ (by simp only [exec, put']; rfl) scratch_ax ?_).toR op
      rw [setR_same, put_of_rop _ _ _ hsz]
      simp only [X86.get]
      exact h1.zx.zx
  | div =>
    obtain ⟨h1, h2, rfl⟩ := hdm (Or.inl rfl)
    exact (div_calc t a b op i hop s hw hs ha hb hx hy h1 h2).imp fun s' _ q => q.1
  | mod =>
    obtain ⟨h1, h2, rfl⟩ := hdm (Or.inr rfl)
    refine calcR_append (div_calc t a b op i hop s hw hs ha hb hx hy h1 h2) fun s1 _ _ q => ?_
    refine (calc_setR' _ s1 .ax _ _ (by simp only [exec, put']; rfl) scratch_ax ?_).toR op
    rw [setR_same, put_of_rop _ _ _ (Or.inr rfl)]
    simp only [X86.get, zx8]
    exact q.2

theorem cmpFlags_same (sz : Nat) (x x' y y' : Word) (hx : SameLow sz x x') (hy : SameLow sz y y') : cmpFlags sz x y = cmpFlags sz x' y' := by
  unfold cmpFlags
  rw [zx_congr sz _ _ hx, zx_congr sz _ _ hy, sx_congr sz _ _ hx, sx_congr sz _ _ hy]

/-- A comparison of operands with the given values. -/
theorem cmp_calc (t : ITy) (a b : Int) (src dst : Opd) (s : St) (hx : Low t.size a (X86.get E.sym s t.size dst))
    (hy : Low t.size b (X86.get E.sym s t.size src)) :
    Calc E [.cmp t.size src dst] s fun s' => ∃ x y, Low t.size a x ∧ Low t.size b y ∧ s'.f = some (cmpFlags t.size x y) ∧ s'.r = s.r := by
  refine calc_flags _ s _ _ (by simp only [exec]) ⟨_, _, hx, hy, rfl, rfl⟩

/-- Shift by the count in %cl. -/
theorem shft_cl_calc (k : ShKind) (sz : Nat) (hsz : sz = 4 ∨ sz = 8) (n : Nat) (hn : n < 8 * sz) (s : St)
    (hc : (s.r .cx).toNat % 256 = n) :
    Calc E [.shft k sz .cl .ax] s fun s' => SameLow sz (s'.r .ax) (shOp k sz (s.r .ax) n) := by
  refine calc_setR _ s .ax _ _ none (by simp only [exec, St.noFlags]; rfl) scratch_ax ?_
  simp only [setR_same]
  rw [put_of_rop _ _ _ hsz]
  refine (sameLow_zx sz _).trans ?_
  have : (s.r .cx).toNat % (if sz = 8 then 64 else 32) = n := by
    rcases hsz with rfl | rfl <;> simp <;> omega
  rw [this]
  exact SameLow.rfl' _ _

theorem put1_mod (o x : Word) : (put 1 o x).toNat % 256 = x.toNat % 256 := by
  have := congrArg BitVec.toNat (put1_exact o x)
  rw [zx_toNat _ _ (by omega), zx_toNat _ _ (by omega)] at this
  exact this

/-- `movb` to %cl. -/
theorem mov_cl_calc (src : Opd) (c : Int) (s : St) (h0 : 0 ≤ c) (h : c < 256) (hc : Low 1 c (X86.get E.sym s 1 src)) :
    Calc E [.mov 1 src (.reg .cx)] s fun s' => (s'.r .cx).toNat % 256 = c.toNat ∧ s'.r .ax = s.r .ax := by
  refine calc_setR' _ s .cx _ _ (by simp only [exec, put']; rfl) scratch_cx ⟨?_, setR_other _ _ _ _ (by simp)⟩
  rw [setR_same, put1_mod]
  have := congrArg BitVec.toNat (hc.zx_eq (by omega))
  rw [zx_toNat _ _ (by omega), zx_toNat _ _ (by omega)] at this
  have h2 := toNat_ofInt64 c
  omega

end
end Slimcc
