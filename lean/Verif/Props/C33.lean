import Verif.Props.C32
/-!
C33: division and remainder by powers of two are exact.

`Int.tdiv` and `Int.tmod` are the C quotient (truncated toward zero) and remainder. `a` and `b`
range over all values of the type; the low bits of %rax hold the dividend.
-/
set_option autoImplicit false
namespace Slimcc.Props
open Slimcc Slimcc.Spec Slimcc.Spec.CTy Slimcc.Ty Slimcc.X86 Slimcc.Gen

/-- The emitted sequence, whenever one is emitted instead of a division. -/
theorem C33_divmod (sym : Nat → Word) (isMod : Bool) (t : CTy) (ht : t.bytes = 4 ∨ t.bytes = 8) (a b : Int) (l : List Ins) (s : St)
    (ha : InRange t a) (hb : InRange t b) (hx : (s.r .ax).setWidth (8 * t.bytes) = BitVec.ofInt (8 * t.bytes) a)
    (h : divmodOpt isMod (ity t) (BitVec.ofInt 64 b) = some l) :
    ∃ s', execs sym l s = some s' ∧
      (s'.r .ax).setWidth (8 * t.bytes) = BitVec.ofInt (8 * t.bytes) (if isMod then a.tmod b else a.tdiv b) ∧ s'.m = s.m ∧
      ∀ r, r ≠ .ax → r ≠ .cx → r ≠ .dx → s'.r r = s.r r := by
  have hw : (ity t).size = t.bytes := (bytes_size t).symm
  rw [← hw] at hx ⊢
  obtain ⟨s', x, y, z, d⟩ := divmod_calc (E := symEnv sym) isMod (ity t) a b l s (ity_wf t) (by rw [hw]; omega) (by rw [cty_ity]; exact ha)
    (by rw [cty_ity]; exact hb) hx h
  exact ⟨s', x, d, y, fun r h1 h2 h3 => z r (by rintro (h | h | h) <;> contradiction)⟩

/-- Division by zero is never replaced. -/
theorem C33_zero (isMod : Bool) (t : CTy) : divmodOpt isMod (ity t) 0 = none := by
  cases isMod <;> cases t <;> decide

/-- Division by 1 and -1 always is, and so is division by a power of two for unsigned types. -/
theorem C33_one (isMod : Bool) (t : CTy) (b : Int) (hb : b = 1 ∨ b = -1) : (divmodOpt isMod (ity t) (BitVec.ofInt 64 b)).isSome := by
  rcases hb with rfl | rfl <;> cases isMod <;> cases t <;> decide

/-- The whole expression `e / c` or `e % c` for a constant or any other divisor; `arith` is undefined
for a zero divisor and for the quotient of the least value by -1. -/
theorem C33_expr (hs : HostShift) (opt : Bool) (E : Env) (P : List Line) (isMod : Bool) (e : Expr) (tc : CTy) (k : Int) (σ σ' : Store) (a v : Int)
    (s : St) (pc c : Nat) (hE : E.Ok) (hP : UniqueLabels P) (hw : e.Wf) (hk : InRange tc k) (hx : ∀ x ∈ e.vars, E.dom x)
    (hq : opt = true → e.Sequenced) (hσ : StoreOk E.Γ σ) (hbp : s.r .bp = E.bp) (hm : Rel E σ s.m)
    (he : ceval E.Γ e σ = .ok (a, σ'))
    (hv : let t := CTy.common (e.ty E.Γ).promote tc.promote
      conv t k ≠ 0 ∧ InRange t ((conv t a).tdiv (conv t k)) ∧ v = if isMod then (conv t a).tmod (conv t k) else (conv t a).tdiv (conv t k))
    (hK : (compileExpr hs opt E.Γ E.loc E.stk (.bin (.ar (if isMod then .mod else .div)) e (.num tc k)) c).1.st ≤ E.K)
    (hc : CodeAt P pc (compileExpr hs opt E.Γ E.loc E.stk (.bin (.ar (if isMod then .mod else .div)) e (.num tc k)) c).1.code) :
    ∃ s', Runs E.sym P (pc, s)
        (pc + (compileExpr hs opt E.Γ E.loc E.stk (.bin (.ar (if isMod then .mod else .div)) e (.num tc k)) c).1.code.length, s') ∧
      InReg (CTy.common (e.ty E.Γ).promote tc.promote) v (s'.r .ax) ∧ Rel E σ' s'.m := by
  obtain ⟨s', h1, h2, h3, _⟩ := C30_expr hs opt E P (.bin (.ar (if isMod then .mod else .div)) e (.num tc k)) σ σ' v s pc c hE hP ⟨hw, hk⟩
    (by intro x hx'; exact hx x (by simpa [Expr.vars] using hx')) (fun h => ⟨hq h, trivial, by simp [Expr.vars, Expr.assigned]⟩) hσ hbp hm
    (by
      show (ceval E.Γ e σ).bind _ = _
      rw [he]
      simp only [ok_bind]
      obtain ⟨n0, hr, e3⟩ := hv
      show (Res.ok (k, σ')).bind _ = _
      simp only [ok_bind, binop, show Expr.ty E.Γ (.num tc k) = tc from rfl]
      have hr' := hr
      unfold InRange at hr'
      cases isMod
      · simp only [Bool.false_eq_true, if_false, arith, if_neg n0] at e3 ⊢
        rw [if_pos hr', e3]; rfl
      · simp only [if_true, arith, if_neg n0] at e3 ⊢
        rw [if_pos hr', e3]; rfl) hK hc
  exact ⟨s', h1, h2, h3⟩

/-- Cases meeting the hypotheses: `unsigned` 100 / 8 and 100 % 8 use a shift and a mask; the dividend's
register holds garbage in its upper half. -/
example : divmodOpt false (ity .uint) 8 = some [.shft .shr 4 (.imm 3) .ax] ∧ divmodOpt true (ity .ulong) 8 = some [.alu .and 4 (.imm 7) (.reg .ax)] := by decide

example : ∃ s', execs (fun _ => 0) [.shft .shr 4 (.imm 3) .ax] ⟨fun _ => 0xabcdef0100000064, fun _ => 0, none⟩ = some s' ∧ (s'.r .ax).setWidth 32 = 12#32 := by
  obtain ⟨s', a, b, _⟩ := C33_divmod (fun _ => 0) false .uint (Or.inl rfl) 100 8 [.shft .shr 4 (.imm 3) .ax] ⟨fun _ => 0xabcdef0100000064, fun _ => 0, none⟩ (by decide) (by decide) (by decide) (by decide)
  exact ⟨s', a, b⟩

end Slimcc.Props
