import Verif.Props.C30
/-!
C47: increment and decrement return the right value, for every integer type and value.
-/
set_option autoImplicit false
namespace Slimcc.Props
open Slimcc Slimcc.Spec Slimcc.Spec.CTy Slimcc.Ty Slimcc.X86 Slimcc.Gen

/-- C23 6.5.3.1: `++x` is `x += 1`: the new value is `x ± 1` converted to the type of `x`. -/
theorem incr_eval (Γ : Nat → CTy) (σ : Store) (hσ : StoreOk Γ σ) (pre up : Bool) (x : Nat) :
    ceval Γ (.incr pre up x) σ =
      .ok (if pre then conv (Γ x) (σ x + if up then 1 else -1) else σ x, σ.set x (conv (Γ x) (σ x + if up then 1 else -1))) := by
  have hr := hσ x
  have key : ∀ (t : CTy) (a d : Int), (d = 1 ∨ d = -1) → InRange t a →
      conv t (conv (CTy.common t.promote CTy.int.promote) (conv (CTy.common t.promote CTy.int.promote) a + d)) = conv t (a + d) := by
    intro t a d hd ha
    cases t
    case bool => rw [show CTy.common CTy.bool.promote CTy.int.promote = CTy.int from by decide]; rcases hd with rfl | rfl <;> conv_omega
    case char => rw [show CTy.common CTy.char.promote CTy.int.promote = CTy.int from by decide]; rcases hd with rfl | rfl <;> conv_omega
    case schar => rw [show CTy.common CTy.schar.promote CTy.int.promote = CTy.int from by decide]; rcases hd with rfl | rfl <;> conv_omega
    case uchar => rw [show CTy.common CTy.uchar.promote CTy.int.promote = CTy.int from by decide]; rcases hd with rfl | rfl <;> conv_omega
    case short => rw [show CTy.common CTy.short.promote CTy.int.promote = CTy.int from by decide]; rcases hd with rfl | rfl <;> conv_omega
    case ushort => rw [show CTy.common CTy.ushort.promote CTy.int.promote = CTy.int from by decide]; rcases hd with rfl | rfl <;> conv_omega
    case int => rw [show CTy.common CTy.int.promote CTy.int.promote = CTy.int from by decide]; rcases hd with rfl | rfl <;> conv_omega
    case uint => rw [show CTy.common CTy.uint.promote CTy.int.promote = CTy.uint from by decide]; rcases hd with rfl | rfl <;> conv_omega
    case long => rw [show CTy.common CTy.long.promote CTy.int.promote = CTy.long from by decide]; rcases hd with rfl | rfl <;> conv_omega
    case ulong => rw [show CTy.common CTy.ulong.promote CTy.int.promote = CTy.ulong from by decide]; rcases hd with rfl | rfl <;> conv_omega
    case llong => rw [show CTy.common CTy.llong.promote CTy.int.promote = CTy.llong from by decide]; rcases hd with rfl | rfl <;> conv_omega
    case ullong => rw [show CTy.common CTy.ullong.promote CTy.int.promote = CTy.ullong from by decide]; rcases hd with rfl | rfl <;> conv_omega
  have hc1 : conv (CTy.common (Γ x).promote CTy.int.promote) 1 = 1 := by cases Γ x <;> rfl
  have e : ceval Γ (.incr pre up x) σ = (binop (.ar (if up then .add else .sub)) (Γ x) .int (σ x) 1).bind fun r =>
      .ok (if pre then conv (Γ x) r else σ x, σ.set x (conv (Γ x) r)) := rfl
  rw [e]
  cases up with
  | true =>
    simp only [if_true, binop, arith, Res.bind, hc1]
    rw [key (Γ x) (σ x) 1 (Or.inl rfl) hr]
  | false =>
    simp only [Bool.false_eq_true, if_false, binop, arith, Res.bind, hc1]
    have := key (Γ x) (σ x) (-1) (Or.inr rfl) hr
    rw [Int.sub_eq_add_neg, this]

section
variable (hs : HostShift) (opt : Bool) (E : Env)

/-- The code of `++x`, `--x`, `x++` and `x--` leaves the new value of `x` (for the prefix forms) or
the old one (for the postfix forms) in %rax, and changes exactly `x`, to the old value plus or minus
one converted to its type. -/
theorem C47_incr (P : List Line) (pre up : Bool) (x : Nat) (σ : Store) (s : St) (pc c : Nat)
    (hE : E.Ok) (hP : UniqueLabels P) (hx : E.dom x) (hσ : StoreOk E.Γ σ) (hbp : s.r .bp = E.bp) (hm : Rel E σ s.m)
    (hK : (compileExpr hs opt E.Γ E.loc E.stk (.incr pre up x) c).1.st ≤ E.K)
    (hc : CodeAt P pc (compileExpr hs opt E.Γ E.loc E.stk (.incr pre up x) c).1.code) :
    let new := conv (E.Γ x) (σ x + if up then 1 else -1)
    ∃ s', Runs E.sym P (pc, s) (pc + (compileExpr hs opt E.Γ E.loc E.stk (.incr pre up x) c).1.code.length, s') ∧
      InReg (E.Γ x) (if pre then new else σ x) (s'.r .ax) ∧ Rel E (fun y => if y = x then new else σ y) s'.m := by
  obtain ⟨s', h1, h2, h3, _⟩ := C30_expr hs opt E P (.incr pre up x) σ _ _ s pc c hE hP trivial
    (by intro y hy; rw [List.mem_singleton.1 hy]; exact hx) (fun _ => trivial) hσ hbp hm (incr_eval E.Γ σ hσ pre up x) hK hc
  exact ⟨s', h1, h2, h3⟩

/-- As a statement. -/
theorem C47_void (P : List Line) (pre up : Bool) (x : Nat) (σ : Store) (s : St) (pc c : Nat)
    (hE : E.Ok) (hP : UniqueLabels P) (hx : E.dom x) (hσ : StoreOk E.Γ σ) (hbp : s.r .bp = E.bp) (hm : Rel E σ s.m)
    (hK : (compileVoid hs opt E.Γ E.loc E.stk (.incr pre up x) c).1.st ≤ E.K)
    (hc : CodeAt P pc (compileVoid hs opt E.Γ E.loc E.stk (.incr pre up x) c).1.code) :
    ∃ s', Runs E.sym P (pc, s) (pc + (compileVoid hs opt E.Γ E.loc E.stk (.incr pre up x) c).1.code.length, s') ∧
      Rel E (fun y => if y = x then conv (E.Γ x) (σ x + if up then 1 else -1) else σ y) s'.m := by
  obtain ⟨s', h1, h2, _⟩ := C30_void hs opt E P (.incr pre up x) σ _ _ s pc c hE hP trivial
    (by intro y hy; rw [List.mem_singleton.1 hy]; exact hx) (fun _ => trivial) hσ hbp hm (incr_eval E.Γ σ hσ pre up x) hK hc
  exact ⟨s', h1, h2⟩

end

/-- Wrap-around and `_Bool`: values of `++` and `--` at the ends. -/
example : conv .uchar (255 + 1) = 0 ∧ conv .schar (127 + 1) = -128 ∧ conv .bool (1 + 1) = 1 ∧ conv .bool (0 + -1) = 1 ∧
    conv .uint (0 + -1) = 4294967295 := by decide

/-- A case meeting the hypotheses: `y++` for an `unsigned char` 200. -/
example (up pre opt : Bool) : ∃ s', Runs exEnv.sym (compileExpr exShift opt exΓ exEnv.loc 16 (.incr pre up 1) 5).1.code (0, exState)
    (0 + (compileExpr exShift opt exΓ exEnv.loc 16 (.incr pre up 1) 5).1.code.length, s') ∧
    InReg .uchar (if pre then conv .uchar (200 + if up then 1 else -1) else 200) (s'.r .ax) ∧
    Rel exEnv (fun y => if y = 1 then conv .uchar (200 + if up then 1 else -1) else exStore y) s'.m :=
  C47_incr exShift opt exEnv _ pre up 1 exStore exState 0 5 exEnv_ok (C30_labels exShift opt exEnv (.incr pre up 1) 5).1 (by show 1 < 3; omega) exStoreOk rfl exRel
    (by cases up <;> cases pre <;> cases opt <;> decide) (fun i _ => by rw [Nat.zero_add]; rfl)

end Slimcc.Props
