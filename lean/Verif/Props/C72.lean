import Verif.Lemmas.AddrOp
import Verif.Props.C60
/-!
C72: compiled compound assignments, `++` and `--` on members, array elements and what pointers point to.

`binop` (Spec/CExpr) is the operator of C on values of two types, `conv` the conversion to a type, `l.eval`
(Spec/Lvalue) the address a designator stands for. `compileOpInt`, `compilePre`, `compilePost`,
`compileOpVoid` and `compilePostVoid` (Model/AddrOp) are the code generated for `l op= e`, `++l`/`--l`,
`l++`/`l--`, and for `l op= e;` and `l++;`/`l--;` whose value is not used. `old` is the value of the object
before. `Started`, `Kept` and the restrictions on designators are those of C60; `e` is over integer
variables.
-/
set_option autoImplicit false
namespace Slimcc.Props
open Slimcc Slimcc.Spec Slimcc.Spec.CTy Slimcc.Ty Slimcc.X86 Slimcc.Gen Slimcc.Addr Slimcc.AGen

section
variable (C : Cfg) (P : ODecls) (E : Env) (O : Objects)

private theorem setup72 {addr : Nat → Word} {Pg : List Line} {σ : Store} {s : St} (hC : C.Ok) (h : Started P E O addr Pg σ s) :
    Setup C P E Pg ⟨addr, s.m⟩ O ∧ Here E ⟨addr, s.m⟩ σ s :=
  ⟨⟨hC, h.env, h.labels, h.ints, h.objs⟩, h.store, h.bp, h.rel, fun _ _ => rfl⟩

private theorem rhs72 {M : Machine} {Pg : List Line} {e : Expr} {σ σ' : Store} {v : Int} (S : Setup C P E Pg M O) (hw : e.Wf) (hu : Usable E C.opt [e]) (hσ : StoreOk P.ints σ)
    (h : ceval P.ints e σ = .ok (v, σ')) :
    Rhs C E (build C.hs C.opt P.ints e) σ σ' v ∧ (build C.hs C.opt P.ints e).ty = ity (e.ty P.ints) := by
  have hi : Impl P.ints ty_int 0 (build C.hs C.opt P.ints e) (ity (e.ty P.ints)) (ceval P.ints e) := build_impl C.hs C.opt (by decide) e hw
  have hu := hu e (by simp)
  refine ⟨⟨by rw [S.hΓ]; exact hi.wf, build_stat C.hs C.opt P.ints E.dom e hu.1 hu.2, noNull_build C.hs C.opt e, refines_ok (hi.ref σ hσ) h⟩, hi.ty⟩

private theorem nb72 (op : BinOp) (t u : CTy) (a b : Int) (ha : InRange t a) : nbinop (akind op (ity t)) (ity t) (ity u) a b = binop op t u a b := by
  rw [binop_akind op (ity t) (ity u) a b (ity_wf t) (by rw [cty_ity]; exact ha), cty_ity, cty_ity]

private theorem one72 (up : Bool) (t : CTy) (a : Int) :
    nbinop (.ar .add) (ity t) ty_int a (if up then 1 else -1) = binop (.ar (if up then .add else .sub)) t .int a 1 := by
  have hc := commonTy_ok (ity t) ty_int (ity_wf _) rfl
  rw [cty_ity, show cty ty_int = .int from rfl] at hc
  have hcb : cty (commonTy (ity t) ty_int) ≠ .bool := fun e => big_ne_bool _ hc.2.2 ((cty_bool _).1 e)
  cases up
  · simp only [nbinop, binop, cty_ity, show cty ty_int = .int from rfl, ← hc.2.1, Bool.false_eq_true, if_false, arith]
    congr 1
    apply conv_eq_of_congr _ _ _ hcb
    have e1 := Int.dvd_of_emod_eq_zero (conv_congr (cty (commonTy (ity t) ty_int)) 1 hcb)
    have e2 := Int.dvd_of_emod_eq_zero (conv_congr (cty (commonTy (ity t) ty_int)) (-1) hcb)
    have := Int.dvd_add e1 e2
    refine Int.dvd_trans this ⟨1, ?_⟩
    omega
  · simp only [nbinop, binop, cty_ity, show cty ty_int = .int from rfl, if_true]

/-- The code of `l op= e` gives the object the result of the operation on its old value and that of `e`,
converted to its type, leaves that in %rax, and changes no other object. -/
theorem C72_compound (hC : C.Ok) (addr : Nat → Word) (Pg : List Line) (σ σ1 σ2 : Store) (s : St) (h : Started P E O addr Pg σ s)
    (l : LV) (t : CTy) (ht : l.ty P = some (.int t)) (hw : l.Wf) (hn : l.NoConv) (hu : Usable E C.opt l.exprs)
    (op : BinOp) (e : Expr) (ew : e.Wf) (eu : Usable E C.opt [e]) (hf : l.Fine P ⟨addr, s.m⟩ E σ)
    (a : Word) (he : l.eval P ⟨addr, s.m⟩ σ = .ok (a, σ1)) (ha : E.Apart a t.bytes)
    (old : Int) (ho : (Machine.mk addr s.m).int t a = old) (hv : InRange t old)
    (v : Int) (hev : ceval P.ints e σ1 = .ok (v, σ2)) (w : Int) (hop : binop op t (e.ty P.ints) old v = .ok w) (pc c : Nat)
    (hK : (compileOpInt C P E.loc O.at_ E.stk op t l e c).1.st ≤ E.K)
    (hc : CodeAt Pg pc (compileOpInt C P E.loc O.at_ E.stk op t l e c).1.code) :
    ∃ s', Runs E.sym Pg (pc, s) (pc + (compileOpInt C P E.loc O.at_ E.stk op t l e c).1.code.length, s') ∧
      (Machine.mk addr s'.m).int t a = conv t w ∧ InReg t (conv t w) (s'.r .ax) ∧ KeptBut E σ2 a t.bytes s s' := by
  obtain ⟨S, H⟩ := setup72 C P E O hC h
  have hσ1 : StoreOk P.ints σ1 := sokL C.hs _ l σ σ1 a hw (S.sok H) he
  obtain ⟨hr, hty⟩ := rhs72 C P E O S ew eu hσ1 hev
  subst ho
  obtain ⟨s', r, _, _, q1, q2⟩ := op_does S ⟨ht, hw, hn, hu⟩ (akind op (ity t)) _ c H hf he ha hv hr (by rw [hty, nb72 op t _ _ _ hv]; exact hop) hK pc hc
  exact ⟨s', r, wrote_int (M := ⟨addr, s.m⟩) (conv_range t w) q1 q2, (reps_inReg _ _ _).1 q2, q1.rel, q1.bp, q1.mem⟩

/-- The code of `++l` and `--l` adds one to the object or subtracts one, and leaves the new value in %rax. -/
theorem C72_prefix (hC : C.Ok) (addr : Nat → Word) (Pg : List Line) (σ σ1 : Store) (s : St) (h : Started P E O addr Pg σ s)
    (l : LV) (t : CTy) (ht : l.ty P = some (.int t)) (hw : l.Wf) (hn : l.NoConv) (hu : Usable E C.opt l.exprs)
    (up : Bool) (hf : l.Fine P ⟨addr, s.m⟩ E σ)
    (a : Word) (he : l.eval P ⟨addr, s.m⟩ σ = .ok (a, σ1)) (ha : E.Apart a t.bytes)
    (old : Int) (ho : (Machine.mk addr s.m).int t a = old) (hv : InRange t old)
    (w : Int) (hop : binop (.ar (if up then .add else .sub)) t .int old 1 = .ok w) (pc c : Nat)
    (hK : (compilePre C P E.loc O.at_ E.stk up t l c).1.st ≤ E.K)
    (hc : CodeAt Pg pc (compilePre C P E.loc O.at_ E.stk up t l c).1.code) :
    ∃ s', Runs E.sym Pg (pc, s) (pc + (compilePre C P E.loc O.at_ E.stk up t l c).1.code.length, s') ∧
      (Machine.mk addr s'.m).int t a = conv t w ∧ InReg t (conv t w) (s'.r .ax) ∧ KeptBut E σ1 a t.bytes s s' :=
  C72_compound C P E O hC addr Pg σ σ1 σ1 s h l t ht hw hn hu (.ar (if up then .add else .sub)) (.num .int 1) (by decide)
    (fun e he => by
      simp only [List.mem_singleton] at he
      subst he
      exact ⟨by intro x hx; simp [Expr.vars] at hx, fun _ => trivial⟩)
    hf a he ha old ho hv 1 rfl w hop pc c hK hc

/-- The code of `l++` and `l--` adds one to the object or subtracts one, and leaves the old value in
%rax. -/
theorem C72_postfix (hC : C.Ok) (addr : Nat → Word) (Pg : List Line) (σ σ1 : Store) (s : St) (h : Started P E O addr Pg σ s)
    (l : LV) (t : CTy) (ht : l.ty P = some (.int t)) (hw : l.Wf) (hn : l.NoConv) (hu : Usable E C.opt l.exprs)
    (up : Bool) (hf : l.Fine P ⟨addr, s.m⟩ E σ)
    (a : Word) (he : l.eval P ⟨addr, s.m⟩ σ = .ok (a, σ1)) (ha : E.Apart a t.bytes)
    (old : Int) (ho : (Machine.mk addr s.m).int t a = old) (hv : InRange t old)
    (w : Int) (hop : binop (.ar (if up then .add else .sub)) t .int old 1 = .ok w) (pc c : Nat)
    (hK : (compilePost C P E.loc O.at_ E.stk up t l c).1.st ≤ E.K)
    (hc : CodeAt Pg pc (compilePost C P E.loc O.at_ E.stk up t l c).1.code) :
    ∃ s', Runs E.sym Pg (pc, s) (pc + (compilePost C P E.loc O.at_ E.stk up t l c).1.code.length, s') ∧
      (Machine.mk addr s'.m).int t a = conv t w ∧ InReg t old (s'.r .ax) ∧ KeptBut E σ1 a t.bytes s s' := by
  obtain ⟨S, H⟩ := setup72 C P E O hC h
  subst ho
  obtain ⟨s', r, _, y, q1, q2, q3⟩ := post_does S ⟨ht, hw, hn, hu⟩ (if up then 1 else -1) (by cases up <;> simp) c H hf he ha hv
    (by rw [one72]; exact hop) hK pc hc
  exact ⟨s', r, wrote_int (M := ⟨addr, s.m⟩) (conv_range t w) q1 q2, (reps_inReg _ _ _).1 q3, q1.rel, q1.bp, q1.mem⟩

/-- The same for `l op= e;`, whose value is not used: the operation may be done in memory. -/
theorem C72_statement (hC : C.Ok) (addr : Nat → Word) (Pg : List Line) (σ σ1 σ2 : Store) (s : St) (h : Started P E O addr Pg σ s)
    (l : LV) (t : CTy) (ht : l.ty P = some (.int t)) (hw : l.Wf) (hn : l.NoConv) (hu : Usable E C.opt l.exprs)
    (op : BinOp) (e : Expr) (ew : e.Wf) (eu : Usable E C.opt [e]) (hf : l.Fine P ⟨addr, s.m⟩ E σ)
    (a : Word) (he : l.eval P ⟨addr, s.m⟩ σ = .ok (a, σ1)) (ha : E.Apart a t.bytes)
    (old : Int) (ho : (Machine.mk addr s.m).int t a = old) (hv : InRange t old)
    (v : Int) (hev : ceval P.ints e σ1 = .ok (v, σ2)) (w : Int) (hop : binop op t (e.ty P.ints) old v = .ok w) (pc c : Nat)
    (hK : (compileOpVoid C P E.loc O.at_ E.stk op t l e c).1.st ≤ E.K)
    (hc : CodeAt Pg pc (compileOpVoid C P E.loc O.at_ E.stk op t l e c).1.code) :
    ∃ s', Runs E.sym Pg (pc, s) (pc + (compileOpVoid C P E.loc O.at_ E.stk op t l e c).1.code.length, s') ∧
      (Machine.mk addr s'.m).int t a = conv t w ∧ KeptBut E σ2 a t.bytes s s' := by
  obtain ⟨S, H⟩ := setup72 C P E O hC h
  have hσ1 : StoreOk P.ints σ1 := sokL C.hs _ l σ σ1 a hw (S.sok H) he
  obtain ⟨hr, hty⟩ := rhs72 C P E O S ew eu hσ1 hev
  subst ho
  obtain ⟨s', r, _, y, q1, q2⟩ := opVoid_does S ⟨ht, hw, hn, hu⟩ (akind op (ity t)) _ c H hf he ha hv hr (by rw [hty, nb72 op t _ _ _ hv]; exact hop) hK pc hc
  exact ⟨s', r, wrote_low (M := ⟨addr, s.m⟩) (conv_range t w) q1 q2, q1.rel, q1.bp, q1.mem⟩

/-- The same for `l++;` and `l--;`. -/
theorem C72_postfix_statement (hC : C.Ok) (addr : Nat → Word) (Pg : List Line) (σ σ1 : Store) (s : St) (h : Started P E O addr Pg σ s)
    (l : LV) (t : CTy) (ht : l.ty P = some (.int t)) (hw : l.Wf) (hn : l.NoConv) (hu : Usable E C.opt l.exprs)
    (up : Bool) (hf : l.Fine P ⟨addr, s.m⟩ E σ)
    (a : Word) (he : l.eval P ⟨addr, s.m⟩ σ = .ok (a, σ1)) (ha : E.Apart a t.bytes)
    (old : Int) (ho : (Machine.mk addr s.m).int t a = old) (hv : InRange t old)
    (w : Int) (hop : binop (.ar (if up then .add else .sub)) t .int old 1 = .ok w) (pc c : Nat)
    (hK : (compilePostVoid C P E.loc O.at_ E.stk up t l c).1.st ≤ E.K)
    (hc : CodeAt Pg pc (compilePostVoid C P E.loc O.at_ E.stk up t l c).1.code) :
    ∃ s', Runs E.sym Pg (pc, s) (pc + (compilePostVoid C P E.loc O.at_ E.stk up t l c).1.code.length, s') ∧
      (Machine.mk addr s'.m).int t a = conv t w ∧ KeptBut E σ1 a t.bytes s s' := by
  obtain ⟨S, H⟩ := setup72 C P E O hC h
  subst ho
  obtain ⟨s', r, _, y, q1, q2⟩ := opVoid_does S ⟨ht, hw, hn, hu⟩ (.ar .add) _ c H hf he ha hv (rhs_num (if up then 1 else -1) (by cases up <;> decide) σ1)
    (by show nbinop _ _ ty_int _ _ = _; rw [one72]; exact hop) hK pc hc
  exact ⟨s', r, wrote_low (M := ⟨addr, s.m⟩) (conv_range t w) q1 q2, q1.rel, q1.bp, q1.mem⟩

private theorem genOp_fresh (k : AKind) (t : CTy) (l : ANode) (r : Node) : Fresh (genOp C P E.loc O.at_ E.stk k t l r) := opN_fresh _ _ _
private theorem genOpVoid_fresh (k : AKind) (t : CTy) (l : ANode) (r : Node) : Fresh (genOpVoid C P E.loc O.at_ E.stk k t l r) := by
  unfold genOpVoid
  cases k with
  | sh => exact genOp_fresh C P E O _ _ _ _
  | ar op =>
    dsimp only
    cases (if op = .mul then none else aluOf op) with
    | none => exact genOp_fresh C P E O _ _ _ _
    | some ins =>
      dsimp only
      by_cases hc : (C.opt && decide (t ≠ .bool)) = true
      · rw [if_pos hc]; exact memopArith_fresh _ _ _ _
      · rw [if_neg hc]; exact genOp_fresh C P E O _ _ _ _

/-- The code defines no label twice, and all its labels are new. -/
theorem C72_labels (l : LV) (op : BinOp) (e : Expr) (t : CTy) (up : Bool) (c : Nat) (g : G)
    (hg : g = compileOpInt C P E.loc O.at_ E.stk op t l e ∨ g = compilePre C P E.loc O.at_ E.stk up t l ∨ g = compilePost C P E.loc O.at_ E.stk up t l ∨
      g = compileOpVoid C P E.loc O.at_ E.stk op t l e ∨ g = compilePostVoid C P E.loc O.at_ E.stk up t l) :
    UniqueLabels (g c).1.code ∧
    ∀ l, Line.lab l ∈ (g c).1.code → ∃ n, c ≤ n ∧ n < (g c).2 ∧
        (l = .short n ∨ l = .fall n ∨ l = .else_ n ∨ l = .end_ n ∨ l = .begin n ∨ l = .rtn n) := by
  have hF : Fresh g := by
    rcases hg with rfl | rfl | rfl | rfl | rfl
    · exact genOp_fresh C P E O _ _ _ _
    · exact genOp_fresh C P E O _ _ _ _
    · exact postN_fresh _ _ _ _
    · exact genOpVoid_fresh C P E O _ _ _ _
    · exact genOpVoid_fresh C P E O _ _ _ _
  refine ⟨unique_of_nodup _ (hF c).2.1, fun l hl => ?_⟩
  obtain ⟨n, h1, h2, h3⟩ := (hF c).2.2 l (List.mem_filterMap.2 ⟨_, hl, rfl⟩)
  refine ⟨n, h2, h3, ?_⟩
  cases l <;> simp only [lnum, Option.some.injEq, reduceCtorEq] at h1 <;> subst h1 <;> simp

end

/-! A case meeting the hypotheses: the designator `a[z - 99].next->v[2]` of the example of C60, an `int` of
value -7. -/

def aoExpr : Expr := .bin (.ar .mul) (.var 1) (.num .int 3)
theorem aoUsable : Usable exEnv true [aoExpr] := by
  intro e he
  simp only [List.mem_singleton] at he
  subst he
  exact ⟨by intro x hx; simp [aoExpr, Expr.vars] at hx; show x < 3; omega, fun _ => ⟨trivial, trivial, by simp [Expr.vars, Expr.assigned]⟩⟩

/-- `a[z - 99].next->v[2] += y * 3`, with `y` 200: the object and %rax become 593. -/
example : ∃ s', Runs exEnv.sym (compileOpInt adC acP exEnv.loc acO.at_ 16 (.ar .add) .int acLV aoExpr 0).1.code (0, acState)
      (0 + (compileOpInt adC acP exEnv.loc acO.at_ 16 (.ar .add) .int acLV aoExpr 0).1.code.length, s') ∧
      (Machine.mk acAddr s'.m).int .int 0x7ffeffb8 = 593 ∧ InReg .int 593 (s'.r .ax) ∧ KeptBut exEnv exStore 0x7ffeffb8 4 acState s' :=
  C72_compound adC acP exEnv acO adC_ok acAddr _ exStore exStore exStore acState
    (acStarted 0 _ (C72_labels adC acP exEnv acO acLV (.ar .add) aoExpr .int true 0 _ (.inl rfl)).1)
    acLV .int rfl acLV_wf ⟨⟨trivial, trivial⟩, trivial⟩ (acLV_usable _) (.ar .add) aoExpr (show Expr.Wf _ by decide) aoUsable acLV_fine
    0x7ffeffb8 acLV_eval (apart_of _ _ (by decide)) (-7) acLV_int (by decide) 600 acRhs 593 (by decide) 0 0 (by decide) (fun i _ => by rw [Nat.zero_add])

/-- The same as a statement; the operation is done in memory. -/
example : ∃ s', Runs exEnv.sym (compileOpVoid adC acP exEnv.loc acO.at_ 16 (.ar .add) .int acLV aoExpr 0).1.code (0, acState)
      (0 + (compileOpVoid adC acP exEnv.loc acO.at_ 16 (.ar .add) .int acLV aoExpr 0).1.code.length, s') ∧
      (Machine.mk acAddr s'.m).int .int 0x7ffeffb8 = 593 ∧ KeptBut exEnv exStore 0x7ffeffb8 4 acState s' :=
  C72_statement adC acP exEnv acO adC_ok acAddr _ exStore exStore exStore acState
    (acStarted 0 _ (C72_labels adC acP exEnv acO acLV (.ar .add) aoExpr .int true 0 _ (.inr (.inr (.inr (.inl rfl))))).1)
    acLV .int rfl acLV_wf ⟨⟨trivial, trivial⟩, trivial⟩ (acLV_usable _) (.ar .add) aoExpr (show Expr.Wf _ by decide) aoUsable acLV_fine
    0x7ffeffb8 acLV_eval (apart_of _ _ (by decide)) (-7) acLV_int (by decide) 600 acRhs 593 (by decide) 0 0 (by decide) (fun i _ => by rw [Nat.zero_add])

/-- `a[z - 99].next->v[2]--`: the object becomes -8, %rax is -7. -/
example : ∃ s', Runs exEnv.sym (compilePost adC acP exEnv.loc acO.at_ 16 false .int acLV 0).1.code (0, acState)
      (0 + (compilePost adC acP exEnv.loc acO.at_ 16 false .int acLV 0).1.code.length, s') ∧
      (Machine.mk acAddr s'.m).int .int 0x7ffeffb8 = conv .int (-8) ∧ InReg .int (-7) (s'.r .ax) ∧ KeptBut exEnv exStore 0x7ffeffb8 4 acState s' :=
  C72_postfix adC acP exEnv acO adC_ok acAddr _ exStore exStore acState
    (acStarted 0 _ (C72_labels adC acP exEnv acO acLV (.ar .add) aoExpr .int false 0 _ (.inr (.inr (.inl rfl)))).1)
    acLV .int rfl acLV_wf ⟨⟨trivial, trivial⟩, trivial⟩ (acLV_usable _) false acLV_fine
    0x7ffeffb8 acLV_eval (apart_of _ _ (by decide)) (-7) acLV_int (by decide) (-8) (by decide) 0 0 (by decide) (fun i _ => by rw [Nat.zero_add])

/-- `++a[z - 99].next->v[2]`: the object and %rax become -6. -/
example : ∃ s', Runs exEnv.sym (compilePre adC acP exEnv.loc acO.at_ 16 true .int acLV 0).1.code (0, acState)
      (0 + (compilePre adC acP exEnv.loc acO.at_ 16 true .int acLV 0).1.code.length, s') ∧
      (Machine.mk acAddr s'.m).int .int 0x7ffeffb8 = conv .int (-6) ∧ InReg .int (conv .int (-6)) (s'.r .ax) ∧ KeptBut exEnv exStore 0x7ffeffb8 4 acState s' :=
  C72_prefix adC acP exEnv acO adC_ok acAddr _ exStore exStore acState
    (acStarted 0 _ (C72_labels adC acP exEnv acO acLV (.ar .add) aoExpr .int true 0 _ (.inr (.inl rfl))).1)
    acLV .int rfl acLV_wf ⟨⟨trivial, trivial⟩, trivial⟩ (acLV_usable _) true acLV_fine
    0x7ffeffb8 acLV_eval (apart_of _ _ (by decide)) (-7) acLV_int (by decide) (-6) (by decide) 0 0 (by decide) (fun i _ => by rw [Nat.zero_add])

/-- The tree of `x++` on a variable is generated as `genPost` says: the code of the compound assignment,
then that of adding -1 to what is in %rax. -/
example : ∀ t ∈ [CTy.char, .uchar, .short, .ushort, .int, .uint, .long, .ulong], ∀ d ∈ [(1 : Int), -1],
    (genExpr adC.hs true exEnv.loc 16 (newIncDec adC.hs true (ity t) 0 d) 0).1.code =
      ((genExpr adC.hs true exEnv.loc 16 (.arithAssign (.ar .add) (ity t) 0 (.num ty_int (BitVec.ofInt 64 d))) ;;
        genExpr adC.hs true exEnv.loc 16 (nullLhs adC.hs true (.ar .add) (ity t) (.num ty_int (BitVec.ofInt 64 (-d))))) 0).1.code := by
  decide +kernel

end Slimcc.Props
