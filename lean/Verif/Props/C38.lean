import Verif.Props.C30
/-!
C38: integer conversions in generated code are C conversions.

`InReg t v x` (Spec/Compiled) says how a value is kept in a register; the upper bits of types of at
most four bytes are unspecified. `conv` (Spec/CInt) is the C conversion.
-/
set_option autoImplicit false
namespace Slimcc.Props
open Slimcc Slimcc.Spec Slimcc.Spec.CTy Slimcc.Ty Slimcc.X86 Slimcc.Gen

/-- The entry of the conversion table for any two integer types converts; it changes no memory and
no register other than %rax, %rcx and %rdx. -/
theorem C38_table (sym : Nat → Word) (fr to : CTy) (hb : to ≠ .bool) (v : Int) (s : St) (hv : InRange fr v) (h : InReg fr v (s.r .ax)) :
    ∃ s', execs sym (castIns (ity fr) (ity to)) s = some s' ∧ InReg to (conv to v) (s'.r .ax) ∧ s'.m = s.m ∧
      ∀ r, r ≠ .ax → r ≠ .cx → r ≠ .dx → s'.r r = s.r r := by
  have hk : (ity to).kind ≠ .bool := fun e => hb (by have := (cty_bool (ity to)).2 e; rwa [cty_ity] at this)
  obtain ⟨s', a, b, c, d⟩ := cast_calc (E := ⟨fun _ => .int, fun _ => False, fun _ => .sym 0, 0, 0, sym, 0⟩) (ity fr) (ity to) v s (ity_wf _) (ity_wf _) hk
    (by rw [cty_ity]; exact hv) ((reps_inReg _ _ _).2 h)
  rw [cty_ity] at d
  exact ⟨s', a, (reps_inReg _ _ _).1 d, b, fun r h1 h2 h3 => c r (by rintro (h | h | h) <;> contradiction)⟩

/-- The whole conversion expression, to `bool` included, of a variable or any other operand: the code
computes the C conversion of the operand's value. -/
theorem C38_cast (hs : HostShift) (opt : Bool) (E : Env) (P : List Line) (t : CTy) (e : Expr) (σ σ' : Store) (v : Int) (s : St) (pc c : Nat)
    (hE : E.Ok) (hP : UniqueLabels P) (hw : e.Wf) (hx : ∀ x ∈ e.vars, E.dom x) (hq : opt = true → e.Sequenced)
    (hσ : StoreOk E.Γ σ) (hbp : s.r .bp = E.bp) (hm : Rel E σ s.m) (hv : ceval E.Γ e σ = .ok (v, σ'))
    (hK : (compileExpr hs opt E.Γ E.loc E.stk (.cast t e) c).1.st ≤ E.K)
    (hc : CodeAt P pc (compileExpr hs opt E.Γ E.loc E.stk (.cast t e) c).1.code) :
    ∃ s', Runs E.sym P (pc, s) (pc + (compileExpr hs opt E.Γ E.loc E.stk (.cast t e) c).1.code.length, s') ∧
      InReg t (conv t v) (s'.r .ax) ∧ Rel E σ' s'.m := by
  obtain ⟨s', h1, h2, h3, _⟩ := C30_expr hs opt E P (.cast t e) σ σ' (conv t v) s pc c hE hP hw hx hq hσ hbp hm
    (by show (ceval E.Γ e σ).bind _ = _; rw [hv]; rfl) hK hc
  exact ⟨s', h1, h2, h3⟩

/-- Loading an object of any integer type extends it correctly. -/
theorem C38_load (E : Env) (σ : Store) (s : St) (x : Nat) (r : Reg) (hr : r = .ax ∨ r = .cx ∨ r = .dx) (hx : E.dom x) (hE : E.Ok)
    (hσ : StoreOk E.Γ σ) (hbp : s.r .bp = E.bp) (hm : Rel E σ s.m) :
    ∃ s', execs E.sym [loadExt (ity (E.Γ x)) (E.loc x) r] s = some s' ∧ InReg (E.Γ x) (σ x) (s'.r r) ∧ s'.m = s.m ∧
      ∀ q, q ≠ r → s'.r q = s.r q := by
  obtain ⟨s', a, b, _, d⟩ := load_calc hm hx (ity (E.Γ x)) (σ x) (E.loc x) r (ity_wf _) (by rw [cty_ity]; exact hσ x) (by rw [Env.size_eq]; exact Nat.le_refl _)
    ⟨0, by omega⟩ (ea_loc hE hx s hbp) hr
  exact ⟨s', a, (reps_inReg _ _ _).1 d.1, b, d.2⟩

/-- A case meeting the hypotheses: a `long` 511 with anything but a `signed char` in its upper bits becomes
the `signed char` -1. -/
example : ∃ s', execs (fun _ => 0) (castIns (ity .long) (ity .schar)) ⟨fun _ => 511, fun _ => 0, none⟩ = some s' ∧ InReg .schar (-1) (s'.r .ax) := by
  obtain ⟨s', a, b, _⟩ := C38_table (fun _ => 0) .long .schar (by decide) 511 ⟨fun _ => 511, fun _ => 0, none⟩ (by decide) ⟨rfl, fun h => by cases h⟩
  exact ⟨s', a, b⟩

example : ∃ s', execs exEnv.sym [loadExt (ity .uchar) (exEnv.loc 1) .ax] exState = some s' ∧ InReg .uchar 200 (s'.r .ax) := by
  obtain ⟨s', a, b, _⟩ := C38_load exEnv exStore exState 1 .ax (Or.inl rfl) (by show 1 < 3; omega) exEnv_ok exStoreOk rfl exRel
  exact ⟨s', a, b⟩

end Slimcc.Props
