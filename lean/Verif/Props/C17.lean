import Verif.Lemmas.ConstNode
/-!
C17: constant folding agrees with C arithmetic.

`ceval` (Spec/CExpr) is the C abstract machine; `constExpr` (Model/Expr) builds the compiler's tree,
folding as it goes if `opt`, and evaluates it. All statements are for either setting of `opt` and
for whatever the host does with shift counts out of range (`hs`).
-/
set_option autoImplicit false
namespace Slimcc.Props
open Slimcc Slimcc.Spec Slimcc.Spec.CTy Slimcc.Ty

section
variable (hs : HostShift) (opt : Bool) (Γ : Nat → CTy)

/-- Whatever the compiler folds has the value C gives it, and has no side effect. -/
theorem C17_value (e : Expr) (h : e.Wf) (σ σ' : Store) (hσ : StoreOk Γ σ) (x : BitVec 64) (v : Int)
    (hc : constExpr hs opt Γ e = .ok x) (he : ceval Γ e σ = .ok (v, σ')) :
    x = BitVec.ofInt 64 v ∧ σ' = σ := by
  have i := build_impl (Γ := Γ) hs opt (nt := ty_int) (acc := 0) (by decide) e h
  have ag := evalNode_agrees hs (nt := ty_int) (acc := 0) (by decide) _ σ i.wf hσ
  rw [(i.ref σ hσ).ok he] at ag
  unfold constExpr at hc
  rw [hc] at ag
  rcases ag with ag | ⟨ag, e⟩
  · cases ag
  · injection ag with ag; exact ⟨ag, e⟩

/-- Every expression without variables that has a value in C is accepted with that value. -/
theorem C17_accepts (e : Expr) (h : e.Wf) (hk : e.Constant) (σ σ' : Store) (hσ : StoreOk Γ σ) (v : Int)
    (he : ceval Γ e σ = .ok (v, σ')) : constExpr hs opt Γ e = .ok (BitVec.ofInt 64 v) := by
  have i := build_impl (Γ := Γ) hs opt (nt := ty_int) (acc := 0) (by decide) e h
  exact (const_ok hs (nt := ty_int) (acc := 0) (by decide) _ σ hσ i.wf (const_build hs opt e hk) v σ'
    ((i.ref σ hσ).ok he)).1

/-- A division by zero that C evaluates is diagnosed. -/
theorem C17_div_zero (e : Expr) (h : e.Wf) (σ : Store) (hσ : StoreOk Γ σ) (he : ceval Γ e σ = .divZero) :
    constExpr hs opt Γ e = .error := by
  have i := build_impl (Γ := Γ) hs opt (nt := ty_int) (acc := 0) (by decide) e h
  have ag := evalNode_agrees hs (nt := ty_int) (acc := 0) (by decide) _ σ i.wf hσ
  rcases i.ref σ hσ with r | r
  · rw [he] at r; cases r
  · rw [← r, he] at ag; exact ag

/-- The value of an expression is a value of its type. -/
theorem C17_typed (e : Expr) (h : e.Wf) (σ σ' : Store) (hσ : StoreOk Γ σ) (v : Int) (he : ceval Γ e σ = .ok (v, σ')) :
    InRange (e.ty Γ) v := by
  have i := build_impl (Γ := Γ) (fun _ _ x _ => x) false (nt := ty_int) (acc := 0) (by decide) e h
  have := (i.range (by decide) σ hσ he).1
  rwa [cty_ity] at this

/-- The tree has the type C gives the expression. -/
theorem C17_type (e : Expr) (h : e.Wf) : (build hs opt Γ e).ty = ity (e.ty Γ) :=
  (build_impl (Γ := Γ) hs opt (nt := ty_int) (acc := 0) (by decide) e h).ty

end

/-! Cases meeting the hypotheses. -/
def allInt : Nat → CTy := fun _ => .int
def σ0 : Store := fun _ => 0
theorem σ0_ok : StoreOk allInt σ0 := fun _ => show InRange .int 0 by decide

/-- `((unsigned char)(200 + 100) << 2) + (-1 > 0u)` is 177. -/
def exA : Expr := .bin (.ar .add) (.bin (.sh .shl) (.cast .uchar (.bin (.ar .add) (.num .int 200) (.num .int 100))) (.num .int 2))
  (.cmp .gt (.un .neg (.num .int 1)) (.num .uint 0))
set_option maxRecDepth 8000 in
example : exA.Wf ∧ exA.Constant ∧ ceval allInt exA σ0 = .ok (177, σ0) := ⟨by decide, by decide, rfl⟩
set_option maxRecDepth 8000 in
example (hs : HostShift) (opt : Bool) : constExpr hs opt allInt exA = .ok 177 :=
  C17_accepts hs opt allInt exA (by decide) (by decide) σ0 σ0 σ0_ok 177 rfl

/-- `0 && 1 / 0`, `1 || 1 / 0` and `1 ? 2 : 1 / 0` evaluate no division. -/
def div0 : Expr := .bin (.ar .div) (.num .int 1) (.num .int 0)
theorem C17_short_circuit (hs : HostShift) (opt : Bool) :
    constExpr hs opt allInt (.land (.num .int 0) div0) = .ok 0 ∧
    constExpr hs opt allInt (.lor (.num .int 3) div0) = .ok 1 ∧
    constExpr hs opt allInt (.cond (.num .int 1) (.num .int 2) div0) = .ok 2 :=
  ⟨C17_accepts hs opt allInt _ (by decide) (by decide) σ0 σ0 σ0_ok 0 rfl,
   C17_accepts hs opt allInt _ (by decide) (by decide) σ0 σ0 σ0_ok 1 rfl,
   C17_accepts hs opt allInt _ (by decide) (by decide) σ0 σ0 σ0_ok 2 rfl⟩
example (hs : HostShift) (opt : Bool) : constExpr hs opt allInt (.land (.num .int 1) div0) = .error :=
  C17_div_zero hs opt allInt _ (by decide) σ0 σ0_ok rfl

/-- Deviation from wrap-around where C leaves the result undefined: `INT_MIN / -1` is folded to
2147483648, which is not a value of `int`. -/
theorem C17_int_min_div (hs : HostShift) :
    constExpr hs false allInt (.bin (.ar .div) (.num .int (-2147483648)) (.num .int (-1))) = .ok 2147483648 := by
  show evalBin .div ty_int (evalCastTo ty_int (BitVec.ofInt 64 (-2147483648))) (evalCastTo ty_int (BitVec.ofInt 64 (-1))) = _
  decide

end Slimcc.Props
