import Verif.Lemmas.AddrOp
import Verif.Model.PtrOp
/-! The code of additions to pointers. -/
set_option autoImplicit false
namespace Slimcc.AGen
open Slimcc Slimcc.Spec Slimcc.Spec.CTy Slimcc.Ty Slimcc.X86 Slimcc.Gen Slimcc.Addr

section
variable {C : Cfg} {P : ODecls} {E : Env} {Pg : List Line} {M : Machine} {O : Objects}

/-- The types a scaled index can have. -/
theorem idxTy_wide (t : OTy) (e : Expr) : (idxTy P t e).bytes = 8 ∧ (idxTy P t e).width = 64 ∧ (idxTy P t e) ≠ .bool := by
  have key : ∀ u : CTy, (CTy.common u.promote (CTy.promote .long)).bytes = 8 ∧ (CTy.common u.promote (CTy.promote .long)).width = 64 ∧
      CTy.common u.promote (CTy.promote .long) ≠ .bool := by intro u; cases u <;> decide
  exact key (e.ty P.ints)

theorem ofInt_conv (t : CTy) (hw : t.width = 64) (hb : t ≠ .bool) (x : Int) : BitVec.ofInt 64 (conv t x) = BitVec.ofInt 64 x :=
  ((Low.of_eq 8 x (by decide)).conv t hb (by omega)).eq8.symm

theorem int_wide (t : CTy) (h8 : t.bytes = 8) (a : Word) : BitVec.ofInt 64 (M.int t a) = BitVec.ofNat 64 (M.word a 8) := by
  have := int_word M t a
  rwa [h8, zx8] at this

theorem int_range_wide (t : CTy) (h8 : t.bytes = 8) (hw : t.width = 64) (a : Word) : InRange t (M.int t a) := by
  unfold Machine.int
  split
  · exact conv_range _ _
  · rename_i hs
    have := word_lt M 8 a
    rw [h8]
    cases t <;> first | (exact absurd rfl hs) | (simp [CTy.width] at hw; done) | skip
    all_goals
      unfold InRange
      rw [show (8 * 8 : Nat) = 64 from rfl] at this
      constructor
      · show (0 : Int) ≤ _; omega
      · show _ ≤ (18446744073709551615 : Int); omega

theorem eq_of_ofInt {t : CTy} (hw : t.width = 64) (hb : t ≠ .bool) {x y : Int} (hy : InRange t y) (h : BitVec.ofInt 64 x = BitVec.ofInt 64 y) : conv t x = y := by
  rw [← conv_id t y hy]
  apply conv_eq_of_congr t x y hb
  rw [hw]
  have := congrArg BitVec.toInt h
  rw [BitVec.toInt_ofInt, BitVec.toInt_ofInt] at this
  have h1 := Int.bmod_emod (x := x) (m := 2 ^ 64)
  have h2 := Int.bmod_emod (x := y) (m := 2 ^ 64)
  rw [this, h2] at h1
  apply Int.dvd_of_emod_eq_zero
  apply Int.emod_eq_emod_iff_emod_sub_eq_zero.1
  exact h1.symm

/-- The scaled index. -/
theorem idx_rhs (S : Setup C P E Pg M O) (t : OTy) (hs : InRange .long (P.sizeof t)) {e : Expr} (hw : e.Wf) (hu : Usable E C.opt [e]) {σ σ' : Store} (hσ : StoreOk P.ints σ) {v : Int}
    (h : ceval P.ints e σ = .ok (v, σ')) :
    ∃ v', Rhs C E (idxNode C P t e) σ σ' v' ∧ (idxNode C P t e).ty = ity (idxTy P t e) ∧ BitVec.ofInt 64 v' = stride P (some t) v := by
  have hw' : (idxExpr (P.sizeof t) e).Wf := ⟨hw, hs⟩
  have hi : Impl P.ints ty_int 0 (idxNode C P t e) (ity (idxTy P t e)) (ceval P.ints (idxExpr (P.sizeof t) e)) := build_impl C.hs C.opt (by decide) _ hw'
  have hu := hu e (by simp)
  obtain ⟨w8, w64, wb⟩ := idxTy_wide (P := P) t e
  have he : ceval P.ints (idxExpr (P.sizeof t) e) σ =
      .ok (conv (idxTy P t e) (conv (idxTy P t e) v * conv (idxTy P t e) (P.sizeof t)), σ') := by
    show (do let (a, σ) ← ceval P.ints e σ; let (b, σ) ← Res.ok ((P.sizeof t : Int), σ); let r ← binop (.ar .mul) (e.ty P.ints) .long a b; Res.ok (r, σ)) = _
    rw [h]; rfl
  refine ⟨_, ⟨by rw [S.hΓ]; exact hi.wf, ?_, noNull_build C.hs C.opt _, refines_ok (hi.ref σ hσ) he⟩, hi.ty, ?_⟩
  · refine build_stat C.hs C.opt P.ints E.dom _ ?_ ?_
    · intro x hx
      simp only [idxExpr, Expr.vars, List.append_nil] at hx
      exact hu.1 x hx
    · intro ho
      exact ⟨hu.2 ho, trivial, by simp [Expr.vars, Expr.assigned]⟩
  · rw [ofInt_conv _ w64 wb, BitVec.ofInt_mul, ofInt_conv _ w64 wb, ofInt_conv _ w64 wb, ← BitVec.ofInt_mul]
    rfl

/-- The sum as integers. -/
def step (up : Bool) (a b : Int) : Int := if up then a + b else a - b
theorem arith_updown (t : CTy) (up : Bool) (a b : Int) : arith t (updown up) a b = .ok (conv t (step up a b)) := by
  cases up <;> rfl

def move (up : Bool) (a b : Word) : Word := if up then a + b else a - b
theorem ofInt_step (up : Bool) (a b : Int) : BitVec.ofInt 64 (step up a b) = move up (BitVec.ofInt 64 a) (BitVec.ofInt 64 b) := by
  cases up
  · show BitVec.ofInt 64 (a - b) = _
    rw [Int.sub_eq_add_neg, BitVec.ofInt_add, BitVec.ofInt_neg]
    exact (BitVec.sub_eq_add_neg _ _).symm
  · exact BitVec.ofInt_add _ _

theorem nullPtr_ok (t : CTy) (w8 : t.bytes = 8) (up : Bool) (old : Int) (ho : InRange t old) {r : Node} (hty : r.ty = ity t) {σ σ' : Store} {v : Int} (hr : Rhs C E r σ σ' v) :
    NullOk C E (nullPtr (updown up) r) t old σ σ' (conv t (step up old v)) := by
  refine ⟨?_, hty, ho, ⟨trivial, hr.stat, hr.nn, fun _ x hx => by cases hx⟩, fun _ => ?_, hr.sok⟩
  · refine ⟨rfl, rfl, ?_, ⟨by rw [hty]; exact ity_wf t, hty⟩, wf_nt E.Γ ty_int (ity t) r hr.nn hr.wf⟩
    rw [hty, ← bytes_size, w8]; decide
  · show (neval old r σ).bind _ = _
    rw [neval_acc old 0 r σ hr.nn, hr.val]
    show (arith (cty r.ty) _ _ _).bind _ = _
    rw [arith_updown, hty, cty_ity]
    rfl

theorem ptrVoid_does (S : Setup C P E Pg M O) {l : LV} {t : OTy} (hl : LOk C P E l (.ptr t)) (up : Bool) {e : Expr}
    {σ σ1 σ2 : Store} {s : St} {a : Word} {v' : Int} (c : Nat) (h : Here E M σ s) (hf : l.Fine P M E σ) (he : l.eval P M σ = .ok (a, σ1))
    (ha : E.Apart a (idxTy P t e).bytes) (hr : Rhs C E (idxNode C P t e) σ1 σ2 v') (hty : (idxNode C P t e).ty = ity (idxTy P t e))
    (hK : (compilePtrVoid C P E.loc O.at_ E.stk up t l e c).1.st ≤ E.K) :
    Does (withObj E (idxTy P t e) a) Pg (compilePtrVoid C P E.loc O.at_ E.stk up t l e c).1 s fun s' =>
      ∃ y, Wrote E M σ2 a (idxTy P t e).bytes y s' ∧ Low (idxTy P t e).bytes (conv (idxTy P t e) (step up (M.int (idxTy P t e) a) v')) y := by
  obtain ⟨w8, w64, wb⟩ := idxTy_wide (P := P) t e
  have hv := int_range_wide (M := M) (idxTy P t e) w8 w64 a
  have hal : ∃ ins, aluOf (updown up) = some ins := by cases up <;> exact ⟨_, rfl⟩
  obtain ⟨ins, hal⟩ := hal
  unfold compilePtrVoid genPtrVoid at hK ⊢
  rw [hal] at hK ⊢
  dsimp only at hK ⊢
  by_cases ho : C.opt = true
  · rw [if_pos ho] at hK ⊢
    refine memopArith_does S hl ins _ c h hf he ha
      ⟨wf_nt E.Γ ty_int _ _ hr.nn hr.wf, by rw [hty, ← bytes_size]; exact Nat.le_refl _, hr.nn, hr.stat, fun _ => hr.val, hr.sok⟩ ?_ hK
    intro p q hp hq
    refine alu_low (updown up) ins (ity (idxTy P t e)) _ _ _ _ p q (by rw [← bytes_size, w8]; decide) (by rw [← bytes_size]; exact Nat.le_refl _) hal ?_ hp hq
    rw [arith_updown, cty_ity]
  · rw [if_neg ho] at hK ⊢
    exact (opN_does S hl c h hf he ha (nullPtr_ok _ w8 up _ hv hty hr) hK).imp fun s' _ q =>
      ⟨_, q.2.1, by have := q.2.2.low; rwa [← bytes_size] at this⟩

end
end Slimcc.AGen
