import Verif.Props.C30
/-!
C32: immediate-operand shortcuts compute the same result as the general code.

The general code loads the constant into %rcx and applies the operation to %rax and %rcx, as the
code generator does for operands it knows nothing about. The low `8 * sz` bits of the register are
the value of the operation's type (`sz` is 4 or 8), the others are unspecified.
-/
set_option autoImplicit false
namespace Slimcc.Props
open Slimcc Slimcc.Spec Slimcc.Spec.CTy Slimcc.Ty Slimcc.X86 Slimcc.Gen

/-- The environment of `Calc`, of which only the symbol addresses matter for execution. -/
def symEnv (sym : Nat → Word) : Env := ⟨fun _ => .int, fun _ => False, fun _ => .sym 0, 0, 0, sym, 0⟩

/-- The general code for a binary operator whose right operand is the constant `v`. -/
def general (op : Alu) (sz : Nat) (v : Word) : List Ins := [.mov 8 (.imm v) (.reg .cx), .alu op sz (.reg .cx) (.reg .ax)]

theorem general_calc (sym : Nat → Word) (op : Alu) (sz : Nat) (hsz : sz = 4 ∨ sz = 8) (v : Word) (s : St) :
    ∃ s', execs sym (general op sz v) s = some s' ∧ s'.m = s.m ∧ SameLow sz (s'.r .ax) (aluOp op (s.r .ax) v) := by
  have h1 : exec sym (.mov 8 (.imm v) (.reg .cx)) s = some (s.setR .cx v) := by
    simp [exec, put', X86.get, put, zx]
  obtain ⟨s2, a, b, _, d⟩ := alu_calc (E := symEnv sym) op sz hsz (.reg .cx) v (s.setR .cx v)
    (by simp only [X86.get]; refine (sameLow_zx sz _).trans ?_; rw [show (s.setR .cx v).r .cx = v from by simp [St.setR]]; exact SameLow.rfl' _ _)
  refine ⟨s2, ?_, b, ?_⟩
  · show (exec sym (.mov 8 (.imm v) (.reg .cx)) s).bind _ = _
    rw [h1]; exact a
  · have : (s.setR .cx v).r .ax = s.r .ax := by show (if Reg.ax = Reg.cx then v else s.r .ax) = _; simp
    rwa [this] at d

/-- Every operator with a shortcut, every constant, every register content, both sizes: shortcut and
general code both run, with the same result; the shortcut changes no memory and no register other than
%rax, %rcx and %rdx. -/
theorem C32_arith (sym : Nat → Word) (k : ArOp) (op : Alu) (hk : aluOf k = some op) (sz : Nat) (hsz : sz = 4 ∨ sz = 8) (v : Word) (s : St) :
    ∃ s1 s2, execs sym (immArith k sz v) s = some s1 ∧ execs sym (general op sz v) s = some s2 ∧
      (s1.r .ax).setWidth (8 * sz) = (s2.r .ax).setWidth (8 * sz) ∧ s1.m = s.m ∧ s2.m = s.m ∧
      ∀ r, r ≠ .ax → r ≠ .cx → r ≠ .dx → s1.r r = s.r r := by
  obtain ⟨s1, a, b, c, d⟩ := immArith_calc (E := symEnv sym) k op sz hsz v s hk
  obtain ⟨s2, a', b', d'⟩ := general_calc sym op sz hsz v s
  exact ⟨s1, s2, a, a', d.trans d'.symm, b, b', fun r h1 h2 h3 => c r (by rintro (h | h | h) <;> contradiction)⟩

/-- ... and that result is the C result: for values `a` and `b` of an unsigned or signed type of that size, the
operation of the abstract machine (C23 6.5), which wraps around. -/
theorem C32_value (sym : Nat → Word) (k : ArOp) (op : Alu) (hk : aluOf k = some op) (t : CTy) (ht : t.bytes = 4 ∨ t.bytes = 8)
    (a b r : Int) (s : St) (ha : (s.r .ax).setWidth (8 * t.bytes) = BitVec.ofInt (8 * t.bytes) a)
    (hr : arith t k a b = .ok r) :
    ∃ s', execs sym (immArith k t.bytes (BitVec.ofInt 64 b)) s = some s' ∧
      (s'.r .ax).setWidth (8 * t.bytes) = BitVec.ofInt (8 * t.bytes) r := by
  obtain ⟨s1, x, _, _, d⟩ := immArith_calc (E := symEnv sym) k op t.bytes ht (BitVec.ofInt 64 b) s hk
  have hw : (ity t).size = t.bytes := (bytes_size t).symm
  have hbig : 4 ≤ (ity t).size := by rw [hw]; omega
  have hne : t ≠ .bool := by rintro rfl; rcases ht with h | h <;> cases h
  refine ⟨s1, x, ?_⟩
  rw [← hw] at ha d ⊢
  exact Eq.trans d (alu_low k op (ity t) (ity t).size a b r _ _ hbig (Nat.le_refl _) hk (by rw [cty_ity]; exact hr) ha (Low.of_eq (ity t).size _ (by rw [hw]; omega)))

/-- Compare with a constant sets the same condition flags as the general comparison. -/
theorem C32_cmp (sym : Nat → Word) (sz : Nat) (hsz : sz = 4 ∨ sz = 8) (v : Word) (s : St) :
    ∃ s1 s2, execs sym (immCmp sz .ax v) s = some s1 ∧
      execs sym [.mov 8 (.imm v) (.reg .cx), .cmp sz (.reg .cx) (.reg .ax)] s = some s2 ∧ s1.f = s2.f ∧
      s1.m = s.m ∧ ∀ r, r ≠ .ax → r ≠ .cx → r ≠ .dx → s1.r r = s.r r := by
  obtain ⟨s1, a, b, c, d⟩ := immCmp_calc (E := symEnv sym) sz hsz v s
  refine ⟨s1, ?_, a, ?_, ?_, b, fun r h1 h2 h3 => c r (by rintro (h | h | h) <;> contradiction)⟩
  · exact { s with r := fun q => if q = .cx then v else s.r q, f := some (cmpFlags sz (s.r .ax) v) }
  · simp only [execs, exec, put', X86.get, put, St.setR, Option.bind]
    rcases hsz with rfl | rfl <;> simp only [cmpFlags, zx_zx, sx_zx] <;> simp [show zx 8 v = v from by simp [zx]]
  · exact d

/-- Shifts by a constant count in range. -/
theorem C32_shift (sym : Nat → Word) (k : ShKind) (sz : Nat) (hsz : sz = 4 ∨ sz = 8) (n : Nat) (hn : n < 8 * sz) (s : St) :
    ∃ s1 s2, execs sym (immShift k sz (BitVec.ofNat 64 n)) s = some s1 ∧
      execs sym [.mov 8 (.imm (BitVec.ofNat 64 n)) (.reg .cx), .shft k sz .cl .ax] s = some s2 ∧
      (s1.r .ax).setWidth (8 * sz) = (s2.r .ax).setWidth (8 * sz) ∧ s1.m = s.m ∧ s2.m = s.m := by
  have h0 : (BitVec.ofInt 64 (n : Int)) = BitVec.ofNat 64 n := by simp
  obtain ⟨s1, a, b, c, d⟩ := immShift_calc (E := symEnv sym) k sz hsz (n : Int) (by omega) (by omega) s
  rw [h0] at a
  have hcx : (BitVec.ofNat 64 n).toNat = n := by rw [BitVec.toNat_ofNat]; exact Nat.mod_eq_of_lt (by omega)
  obtain ⟨s2, a', b', _, d'⟩ := shft_cl_calc (E := symEnv sym) k sz hsz n hn (s.setR .cx (BitVec.ofNat 64 n))
    (by rw [show (s.setR .cx (BitVec.ofNat 64 n)).r .cx = BitVec.ofNat 64 n from by simp [St.setR]]; rw [hcx]; omega)
  have h1 : exec sym (.mov 8 (.imm (BitVec.ofNat 64 n)) (.reg .cx)) s = some (s.setR .cx (BitVec.ofNat 64 n)) := by
    simp [exec, put', X86.get, put, zx]
  refine ⟨s1, s2, a, ?_, ?_, b, b'⟩
  · show (exec sym (.mov 8 (.imm (BitVec.ofNat 64 n)) (.reg .cx)) s).bind _ = _
    rw [h1]; exact a'
  · rw [show (s.setR .cx (BitVec.ofNat 64 n)).r .ax = s.r .ax from by simp [St.setR]] at d'
    exact d.trans d'.symm

/-- Any expression: with the shortcuts and without them the value is the same. -/
theorem C32_expr (hs : HostShift) (E : Env) (P P' : List Line) (e : Expr) (σ σ' : Store) (v : Int) (s : St) (pc pc' c c' : Nat)
    (hE : E.Ok) (hP : UniqueLabels P) (hP' : UniqueLabels P') (hw : e.Wf) (hx : ∀ x ∈ e.vars, E.dom x) (hq : e.Sequenced)
    (hσ : StoreOk E.Γ σ) (hbp : s.r .bp = E.bp) (hm : Rel E σ s.m) (hv : ceval E.Γ e σ = .ok (v, σ'))
    (hK : (compileExpr hs true E.Γ E.loc E.stk e c).1.st ≤ E.K) (hK' : (compileExpr hs false E.Γ E.loc E.stk e c').1.st ≤ E.K)
    (hc : CodeAt P pc (compileExpr hs true E.Γ E.loc E.stk e c).1.code)
    (hc' : CodeAt P' pc' (compileExpr hs false E.Γ E.loc E.stk e c').1.code) :
    ∃ s1 s2, Runs E.sym P (pc, s) (pc + (compileExpr hs true E.Γ E.loc E.stk e c).1.code.length, s1) ∧
      Runs E.sym P' (pc', s) (pc' + (compileExpr hs false E.Γ E.loc E.stk e c').1.code.length, s2) ∧
      InReg (e.ty E.Γ) v (s1.r .ax) ∧ InReg (e.ty E.Γ) v (s2.r .ax) ∧ Rel E σ' s1.m ∧ Rel E σ' s2.m := by
  obtain ⟨s1, a1, a2, a3, _⟩ := C30_expr hs true E P e σ σ' v s pc c hE hP hw hx (fun _ => hq) hσ hbp hm hv hK hc
  obtain ⟨s2, b1, b2, b3, _⟩ := C30_expr hs false E P' e σ σ' v s pc' c' hE hP' hw hx (fun h => nomatch h) hσ hbp hm hv hK' hc'
  exact ⟨s1, s2, a1, b1, a2, b2, a3, b3⟩

/-- Non-trivial constants on which the shortcut differs from the general code. -/
example : immArith .mul 8 16 = [.shft .shl 8 (.imm 4) .ax] ∧ immArith .add 4 (-1) = [.un .dec 4 .ax] ∧
    immArith .mul 4 7 ≠ general .imul 4 7 ∧ immArith .bor 8 0 = [] := by decide

example (sym : Nat → Word) (s : St) : ∃ s1 s2, execs sym (immArith .mul 4 16) s = some s1 ∧ execs sym (general .imul 4 16) s = some s2 ∧
    (s1.r .ax).setWidth 32 = (s2.r .ax).setWidth 32 := by
  obtain ⟨s1, s2, a, b, c, _⟩ := C32_arith sym .mul .imul rfl 4 (Or.inl rfl) 16 s
  exact ⟨s1, s2, a, b, c⟩

end Slimcc.Props
