import Verif.Lemmas.Compile
import Verif.Lemmas.Frame
/-!
C30: compiled integer expressions compute their C value.

`ceval` (Spec/CExpr) is the C abstract machine, `compileExpr` (Model/Compile) the parser's tree
building followed by the code generator, `Runs` (Spec/Compiled) execution on the processor of
Model/X86. An environment `E` says where the variables are; `E.Ok` that they do not overlap each
other or the slots for temporaries. All statements are for optimisation on and off and for whatever
the host does with shift counts out of range.

An expression in which the right operand of an operator assigns a variable that the left operand
uses is undefined in C; `Sequenced` (Spec/Sequenced) excludes it, and is only needed when the
optimiser is on.
-/
set_option autoImplicit false
namespace Slimcc.Props
open Slimcc Slimcc.Spec Slimcc.Spec.CTy Slimcc.Ty Slimcc.X86 Slimcc.Gen

section
variable (hs : HostShift) (opt : Bool) (E : Env)

/-- Wherever the code of an expression stands in a program, running it from any register content
leaves the C value in %rax and the C store in memory, keeps the frame register, and touches nothing
but variables and the slots for temporaries. -/
theorem C30_expr (P : List Line) (e : Expr) (σ σ' : Store) (v : Int) (s : St) (pc c : Nat)
    (hE : E.Ok) (hP : UniqueLabels P) (hw : e.Wf) (hx : ∀ x ∈ e.vars, E.dom x) (hq : opt = true → e.Sequenced)
    (hσ : StoreOk E.Γ σ) (hbp : s.r .bp = E.bp) (hm : Rel E σ s.m) (hv : ceval E.Γ e σ = .ok (v, σ'))
    (hK : (compileExpr hs opt E.Γ E.loc E.stk e c).1.st ≤ E.K)
    (hc : CodeAt P pc (compileExpr hs opt E.Γ E.loc E.stk e c).1.code) :
    ∃ s', Runs E.sym P (pc, s) (pc + (compileExpr hs opt E.Γ E.loc E.stk e c).1.code.length, s') ∧
      InReg (e.ty E.Γ) v (s'.r .ax) ∧ Rel E σ' s'.m ∧ s'.r .bp = E.bp ∧ ∀ a, E.Outside E.K a → s'.m a = s.m a := by
  obtain ⟨s', r, f, q⟩ := compileExpr_ok hE hP hs e σ σ' s v c ⟨hw, hx, hq, hσ, hbp, hm⟩ hv hK pc hc
  exact ⟨s', r, (reps_inReg _ _ _).1 q.2, q.1, f.bp.trans hbp, fun a ha => f.mem a ha.1 fun k hk => ha.2 k (by omega)⟩

/-- The code of an expression defines no label twice, and all its labels are new: numbered from the
counter it started with up to the one it ends with. -/
theorem C30_labels (e : Expr) (c : Nat) :
    UniqueLabels (compileExpr hs opt E.Γ E.loc E.stk e c).1.code ∧
    ∀ l, Line.lab l ∈ (compileExpr hs opt E.Γ E.loc E.stk e c).1.code →
      ∃ n, c ≤ n ∧ n < (compileExpr hs opt E.Γ E.loc E.stk e c).2 ∧
        (l = .short n ∨ l = .fall n ∨ l = .else_ n ∨ l = .end_ n ∨ l = .begin n ∨ l = .rtn n) := by
  refine ⟨gen_unique _ _ _ _ _ _ _ _, fun l hl => ?_⟩
  obtain ⟨n, h1, h2, h3⟩ := (gen_fresh hs opt E.loc E.stk _ .expr (build hs opt E.Γ e) c).2.2 l (List.mem_filterMap.2 ⟨_, hl, rfl⟩)
  refine ⟨n, h2, h3, ?_⟩
  cases l <;> simp only [lnum, Option.some.injEq, reduceCtorEq] at h1 <;> subst h1 <;> simp

/-- The code on its own. -/
theorem C30_alone (e : Expr) (σ σ' : Store) (v : Int) (s : St) (c : Nat)
    (hE : E.Ok) (hw : e.Wf) (hx : ∀ x ∈ e.vars, E.dom x) (hq : opt = true → e.Sequenced)
    (hσ : StoreOk E.Γ σ) (hbp : s.r .bp = E.bp) (hm : Rel E σ s.m) (hv : ceval E.Γ e σ = .ok (v, σ'))
    (hK : (compileExpr hs opt E.Γ E.loc E.stk e c).1.st ≤ E.K) :
    let code := (compileExpr hs opt E.Γ E.loc E.stk e c).1.code
    ∃ s', Runs E.sym code (0, s) (code.length, s') ∧ InReg (e.ty E.Γ) v (s'.r .ax) ∧ Rel E σ' s'.m := by
  obtain ⟨s', r, a, b, _⟩ := C30_expr hs opt E (compileExpr hs opt E.Γ E.loc E.stk e c).1.code e σ σ' v s 0 c hE
    (C30_labels hs opt E e c).1 hw hx hq hσ hbp hm hv hK (fun i _ => by rw [Nat.zero_add])
  rw [Nat.zero_add] at r
  exact ⟨s', r, a, b⟩

/-- An expression evaluated for its effects only. -/
theorem C30_void (P : List Line) (e : Expr) (σ σ' : Store) (v : Int) (s : St) (pc c : Nat)
    (hE : E.Ok) (hP : UniqueLabels P) (hw : e.Wf) (hx : ∀ x ∈ e.vars, E.dom x) (hq : opt = true → e.Sequenced)
    (hσ : StoreOk E.Γ σ) (hbp : s.r .bp = E.bp) (hm : Rel E σ s.m) (hv : ceval E.Γ e σ = .ok (v, σ'))
    (hK : (compileVoid hs opt E.Γ E.loc E.stk e c).1.st ≤ E.K)
    (hc : CodeAt P pc (compileVoid hs opt E.Γ E.loc E.stk e c).1.code) :
    ∃ s', Runs E.sym P (pc, s) (pc + (compileVoid hs opt E.Γ E.loc E.stk e c).1.code.length, s') ∧
      Rel E σ' s'.m ∧ s'.r .bp = E.bp ∧ ∀ a, E.Outside E.K a → s'.m a = s.m a := by
  obtain ⟨s', r, f, q⟩ := compileVoid_ok hE hP hs e σ σ' s v c ⟨hw, hx, hq, hσ, hbp, hm⟩ hv hK pc hc
  exact ⟨s', r, q, f.bp.trans hbp, fun a ha => f.mem a ha.1 fun k hk => ha.2 k (by omega)⟩

end

/-! A case meeting the hypotheses: `x = y * 8 + (z += x)` with `long x; unsigned char y; int z` in a
frame of 16 bytes at address 0x7fff0000 with room for two temporaries. -/

def exΓ : Nat → CTy := fun x => if x = 0 then .long else if x = 1 then .uchar else .int
def exOfs : Nat → Int := fun x => if x = 0 then -8 else if x = 1 then -9 else -16
def exEnv : Env := ⟨exΓ, fun x => x < 3, fun x => .frame (exOfs x), 16, 2, fun _ => 0, 0x7fff0000⟩
def exExpr : Expr := .assign 0 (.bin (.ar .add) (.bin (.ar .mul) (.var 1) (.num .int 8)) (.opAssign (.ar .add) 2 (.var 0)))
def exStore : Store := fun x => if x = 0 then -5 else if x = 1 then 200 else if x = 2 then 100 else 0
def exShift : HostShift := fun _ _ x _ => x

theorem exEnv_ok : exEnv.Ok := by
  have lt3 : ∀ x, x < 3 → x = 0 ∨ x = 1 ∨ x = 2 := by omega
  refine frame_ok exEnv exOfs (fun _ _ => rfl) (fun x hx => ?_) (fun x y hx hy hxy => ?_) (by decide)
  · rcases lt3 x hx with rfl | rfl | rfl <;> decide
  · rcases lt3 x hx with rfl | rfl | rfl <;> rcases lt3 y hy with rfl | rfl | rfl <;> first | exact absurd rfl hxy | decide

/-- A memory that holds the store. -/
def memOf (E : Env) (σ : Store) : Nat → Word → BitVec 8
  | 0 => fun _ => 0
  | n + 1 => wr (memOf E σ n) (E.addr n) (E.size n) (BitVec.ofInt 64 (σ n))

def exState : St := ⟨fun r => if r = .bp then 0x7fff0000 else 0x1234567890, memOf exEnv exStore 3, none⟩

theorem exRel : Rel exEnv exStore exState.m := by
  have lt3 : ∀ x, x < 3 → x = 0 ∨ x = 1 ∨ x = 2 := by omega
  intro x hx
  rcases lt3 x hx with rfl | rfl | rfl <;> decide

theorem exStoreOk : StoreOk exΓ exStore := by
  intro x
  unfold exΓ exStore
  split
  · decide
  · split
    · decide
    · split
      · decide
      · decide

theorem exEval : ceval exΓ exExpr exStore = .ok (1695, (exStore.set 2 95).set 0 1695) := by rfl

/-- The code generated for it stores 1695 in `x` and leaves it in %rax. -/
example : ∃ s', Runs exEnv.sym (compileExpr exShift true exΓ exEnv.loc 16 exExpr 0).1.code (0, exState)
      ((compileExpr exShift true exΓ exEnv.loc 16 exExpr 0).1.code.length, s') ∧ InReg .long 1695 (s'.r .ax) ∧
      Rel exEnv ((exStore.set 2 95).set 0 1695) s'.m :=
  C30_alone exShift true exEnv exExpr exStore ((exStore.set 2 95).set 0 1695) 1695 exState 0 exEnv_ok ⟨⟨trivial, by decide⟩, trivial⟩
    (by intro x hx; simp [exExpr, Expr.vars] at hx; show x < 3; omega) (fun _ => ⟨⟨trivial, trivial, by simp [Expr.vars, Expr.assigned]⟩, ⟨trivial, by simp [Expr.assigned]⟩, by simp [Expr.vars, Expr.assigned]⟩)
    exStoreOk rfl exRel exEval (by decide)

end Slimcc.Props
