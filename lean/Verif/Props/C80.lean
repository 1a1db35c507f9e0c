import Verif.Lemmas.BitOpCode
import Verif.Props.C72
/-!
C80: compiled compound assignments, `++` and `--` of bit-fields.

The field has the declared type `t`, the width `w`, and starts at bit `bo` of its storage unit, which the
designator `l` stands for. `x` is the field's contents, `fieldInt t x` its value (Spec/BitOp), and
`t.promoteBits w` (Spec/CInt) the type C promotes it to. `binop` (Spec/CExpr) is the operator of C on values
of two types, `conv` the conversion to a type. `compileOpBit`, `compilePreBit`, `compilePostBit` and
`compilePostBitVoid` (Model/BitOp) are the code generated for `l op= e`, `++l`/`--l`, `l++`/`l--`, and for
`l++;`/`l--;` whose value is not used; the first two have a flag for that. `OtherBits` says that the bits of
the unit that are not of the field are as they were, `KeptBut` that memory outside the unit is. `Started`
and the restrictions on designators are those of C60. Fields of eight-byte types that start at a byte
boundary and have 8, 16 or 32 bits are excluded, see C21.
-/
set_option autoImplicit false
namespace Slimcc.Props
open Slimcc Slimcc.Spec Slimcc.Spec.CTy Slimcc.Ty Slimcc.X86 Slimcc.Gen Slimcc.Addr Slimcc.AGen

section
variable (C : Cfg) (P : ODecls) (E : Env) (O : Objects)

private theorem setup80 {addr : Nat → Word} {Pg : List Line} {σ : Store} {s : St} (hC : C.Ok) (h : Started P E O addr Pg σ s) :
    Setup C P E Pg ⟨addr, s.m⟩ O ∧ Here E ⟨addr, s.m⟩ σ s :=
  ⟨⟨hC, h.env, h.labels, h.ints, h.objs⟩, h.store, h.bp, h.rel, fun _ _ => rfl⟩

private theorem rhs80 {M : Machine} {Pg : List Line} {e : Expr} {σ σ' : Store} {v : Int} (S : Setup C P E Pg M O) (hw : e.Wf) (hu : Usable E C.opt [e]) (hσ : StoreOk P.ints σ)
    (h : ceval P.ints e σ = .ok (v, σ')) :
    Rhs C E (build C.hs C.opt P.ints e) σ σ' v ∧ (build C.hs C.opt P.ints e).ty = ity (e.ty P.ints) := by
  have hi : Impl P.ints ty_int 0 (build C.hs C.opt P.ints e) (ity (e.ty P.ints)) (ceval P.ints e) := build_impl C.hs C.opt (by decide) e hw
  have hu := hu e (by simp)
  refine ⟨⟨by rw [S.hΓ]; exact hi.wf, build_stat C.hs C.opt P.ints E.dom e hu.1 hu.2, noNull_build C.hs C.opt e, refines_ok (hi.ref σ hσ) h⟩, hi.ty⟩

private theorem nb80 (op : BinOp) (t u : CTy) (a b : Int) (ha : InRange t a) : nbinop (akind op (ity t)) (ity t) (ity u) a b = binop op t u a b := by
  rw [binop_akind op (ity t) (ity u) a b (ity_wf t) (by rw [cty_ity]; exact ha), cty_ity, cty_ity]

private theorem one80 (up : Bool) (t : CTy) (a : Int) :
    nbinop (.ar .add) (ity t) ty_int a (if up then 1 else -1) = binop (.ar (if up then .add else .sub)) t .int a 1 := by
  have hc := commonTy_ok (ity t) ty_int (ity_wf _) rfl
  rw [cty_ity, show cty ty_int = .int from rfl] at hc
  have hcb : cty (commonTy (ity t) ty_int) ≠ .bool := fun e => big_ne_bool _ hc.2.2 ((cty_bool _).1 e)
  cases up
  · simp only [nbinop, binop, cty_ity, show cty ty_int = .int from rfl, ← hc.2.1, Bool.false_eq_true, if_false, arith]
    congr 1
    apply conv_eq_of_congr _ _ _ hcb
    have e1 := Int.dvd_of_emod_eq_zero (conv_congr (cty (commonTy (ity t) ty_int)) 1 hcb)
    have e2 := Int.dvd_of_emod_eq_zero (conv_congr (cty (commonTy (ity t) ty_int)) (-1) hcb)
    have := Int.dvd_add e1 e2
    refine Int.dvd_trans this ⟨1, ?_⟩
    omega
  · simp only [nbinop, binop, cty_ity, show cty ty_int = .int from rfl, if_true]

private theorem field_range (t : CTy) (w : Nat) (hw : 1 ≤ w) (hwt : w ≤ t.width) (x : BitVec w) : fieldInt t x ≤ bitMax t w ∧ InRange t (fieldInt t x) := by
  have h1 : (2 : Int) ^ (w - 1) ≤ 2 ^ (t.width - 1) := by exact_mod_cast Nat.pow_le_pow_right (by decide : 0 < 2) (by omega)
  have h2 : (2 : Int) ^ w ≤ 2 ^ t.width := by exact_mod_cast Nat.pow_le_pow_right (by decide : 0 < 2) hwt
  unfold fieldInt bitMax InRange minVal maxVal
  cases hs : t.isSigned with
  | true =>
    have a1 := BitVec.toInt_lt (x := x)
    have a2 := BitVec.le_toInt (x := x)
    simp only [if_true]
    omega
  | false =>
    have a1 := x.isLt
    have a1 : (x.toNat : Int) < 2 ^ w := by exact_mod_cast a1
    simp only [Bool.false_eq_true, if_false]
    omega

/-- The code of `l op= e` gives the field the result of the operation on its promoted value and that of `e`,
converted to its type and cut to its width, leaves the value it then has in %rax, and changes no other bit
of memory. Division and remainder are only so if neither operand is negative, or the width does not change the
type the field is promoted to, see `C80_division_departs`. -/
theorem C80_compound (hC : C.Ok) (addr : Nat → Word) (Pg : List Line) (σ σ1 σ2 : Store) (s : St) (h : Started P E O addr Pg σ s)
    (l : LV) (t : CTy) (ht : l.ty P = some (.int t)) (hw : l.Wf) (hn : l.NoConv) (hu : Usable E C.opt l.exprs)
    (w bo : Nat) (hpos : 1 ≤ w) (hwt : w ≤ t.width) (hfit : bo + w ≤ 8 * t.bytes) (hgood : t.bytes = 8 → ¬ (bo % 8 = 0 ∧ (w = 8 ∨ w = 16 ∨ w = 32)))
    (op : BinOp) (e : Expr) (ew : e.Wf) (eu : Usable E C.opt [e]) (hf : l.Fine P ⟨addr, s.m⟩ E σ)
    (a : Word) (he : l.eval P ⟨addr, s.m⟩ σ = .ok (a, σ1)) (ha : E.Apart a t.bytes)
    (x : BitVec w) (hx : FieldIs s.m a bo x)
    (v : Int) (hev : ceval P.ints e σ1 = .ok (v, σ2)) (r : Int) (hop : binop op (t.promoteBits w) (e.ty P.ints) (fieldInt t x) v = .ok r)
    (hd : (op ≠ .ar .div ∧ op ≠ .ar .mod) ∨ (0 ≤ fieldInt t x ∧ 0 ≤ v) ∨ t.promoteBits w = t.promote)
    (isVoid : Bool) (pc c : Nat)
    (hK : (compileOpBit C P E.loc O.at_ E.stk isVoid op t w bo l e c).1.st ≤ E.K)
    (hc : CodeAt Pg pc (compileOpBit C P E.loc O.at_ E.stk isVoid op t w bo l e c).1.code) :
    ∃ s', Runs E.sym Pg (pc, s) (pc + (compileOpBit C P E.loc O.at_ E.stk isVoid op t w bo l e c).1.code.length, s') ∧
      FieldIs s'.m a bo (BitVec.ofInt w (conv t r)) ∧ OtherBits a t.bytes bo w s.m s'.m ∧
      (isVoid = false → InReg t (fieldInt t (BitVec.ofInt w (conv t r))) (s'.r .ax)) ∧ KeptBut E σ2 a t.bytes s s' := by
  obtain ⟨S, H⟩ := setup80 C P E O hC h
  have hσ1 : StoreOk P.ints σ1 := sokL C.hs _ l σ σ1 a hw (S.sok H) he
  obtain ⟨hr, hty⟩ := rhs80 C P E O S ew eu hσ1 hev
  obtain ⟨hmax, hin⟩ := field_range t w hpos hwt x
  have hvr : InRange (e.ty P.ints) v := by
    have := (neval_range (by decide) _ σ1 hr.wf (by rw [S.hΓ]; exact hσ1) v σ2 hr.val).1
    rwa [hty, cty_ity] at this
  obtain ⟨y, hy, hbits⟩ := field_op op t _ w hpos hwt _ v r hmax hvr.2 hd hop
  obtain ⟨s', rr, _, q1, q2⟩ := opB_does S ⟨ht, hw, hn, hu⟩ ⟨hpos, hfit, hgood⟩ c H hf he ha hx
    (AGen.null_ok (akind op (ity t)) t _ hin _ hr (by rw [hty, nb80 op t _ _ _ hin]; exact hy)) isVoid hK pc hc
  rw [hbits] at q1 q2
  exact ⟨s', rr, q1.fld, q1.oth, fun hv => (reps_inReg _ _ _).1 (q2 hv), q1.rel, q1.bp, q1.mem⟩

/-- The code of `++l` and `--l` adds one to the field or subtracts one, and leaves the new value in %rax. -/
theorem C80_prefix (hC : C.Ok) (addr : Nat → Word) (Pg : List Line) (σ σ1 : Store) (s : St) (h : Started P E O addr Pg σ s)
    (l : LV) (t : CTy) (ht : l.ty P = some (.int t)) (hw : l.Wf) (hn : l.NoConv) (hu : Usable E C.opt l.exprs)
    (w bo : Nat) (hpos : 1 ≤ w) (hwt : w ≤ t.width) (hfit : bo + w ≤ 8 * t.bytes) (hgood : t.bytes = 8 → ¬ (bo % 8 = 0 ∧ (w = 8 ∨ w = 16 ∨ w = 32)))
    (up : Bool) (hf : l.Fine P ⟨addr, s.m⟩ E σ)
    (a : Word) (he : l.eval P ⟨addr, s.m⟩ σ = .ok (a, σ1)) (ha : E.Apart a t.bytes)
    (x : BitVec w) (hx : FieldIs s.m a bo x)
    (r : Int) (hop : binop (.ar (if up then .add else .sub)) (t.promoteBits w) .int (fieldInt t x) 1 = .ok r)
    (isVoid : Bool) (pc c : Nat)
    (hK : (compilePreBit C P E.loc O.at_ E.stk isVoid up t w bo l c).1.st ≤ E.K)
    (hc : CodeAt Pg pc (compilePreBit C P E.loc O.at_ E.stk isVoid up t w bo l c).1.code) :
    ∃ s', Runs E.sym Pg (pc, s) (pc + (compilePreBit C P E.loc O.at_ E.stk isVoid up t w bo l c).1.code.length, s') ∧
      FieldIs s'.m a bo (BitVec.ofInt w (conv t r)) ∧ OtherBits a t.bytes bo w s.m s'.m ∧
      (isVoid = false → InReg t (fieldInt t (BitVec.ofInt w (conv t r))) (s'.r .ax)) ∧ KeptBut E σ1 a t.bytes s s' :=
  C80_compound C P E O hC addr Pg σ σ1 σ1 s h l t ht hw hn hu w bo hpos hwt hfit hgood (.ar (if up then .add else .sub)) (.num .int 1) (by decide)
    (fun e he => by
      simp only [List.mem_singleton] at he
      subst he
      exact ⟨by intro x hx; simp [Expr.vars] at hx, fun _ => trivial⟩)
    hf a he ha x hx 1 rfl r hop (.inl (by cases up <;> simp)) isVoid pc c hK hc

private theorem inc80 (t : CTy) (w : Nat) (hpos : 1 ≤ w) (hwt : w ≤ t.width) (x : BitVec w) (up : Bool) (r : Int) (σ : Store)
    (hop : binop (.ar (if up then .add else .sub)) (t.promoteBits w) .int (fieldInt t x) 1 = .ok r) :
    ∃ y, BitVec.ofInt w (conv t y) = BitVec.ofInt w (conv t r) ∧
      NullOk C E (nullLhs C.hs C.opt (.ar .add) (ity t) (.num ty_int (BitVec.ofInt 64 (if up then 1 else -1)))) t (fieldInt t x) σ σ (conv t y) := by
  obtain ⟨hmax, hin⟩ := field_range t w hpos hwt x
  obtain ⟨y, hy, hbits⟩ := field_op _ t .int w hpos hwt _ 1 r hmax (by decide) (.inl (by cases up <;> simp)) hop
  refine ⟨y, hbits, AGen.null_ok (.ar .add) t _ hin _ (rhs_num (if up then 1 else -1) (by cases up <;> decide) σ) ?_⟩
  show nbinop _ _ ty_int _ _ = _
  rw [one80]; exact hy

/-- The code of `l++` and `l--` adds one to the field or subtracts one, and leaves the old value in %rax. -/
theorem C80_postfix (hC : C.Ok) (addr : Nat → Word) (Pg : List Line) (σ σ1 : Store) (s : St) (h : Started P E O addr Pg σ s)
    (l : LV) (t : CTy) (ht : l.ty P = some (.int t)) (hw : l.Wf) (hn : l.NoConv) (hu : Usable E C.opt l.exprs)
    (w bo : Nat) (hpos : 1 ≤ w) (hwt : w ≤ t.width) (hfit : bo + w ≤ 8 * t.bytes) (hgood : t.bytes = 8 → ¬ (bo % 8 = 0 ∧ (w = 8 ∨ w = 16 ∨ w = 32)))
    (up : Bool) (hf : l.Fine P ⟨addr, s.m⟩ E σ)
    (a : Word) (he : l.eval P ⟨addr, s.m⟩ σ = .ok (a, σ1)) (ha : E.Apart a t.bytes)
    (x : BitVec w) (hx : FieldIs s.m a bo x)
    (r : Int) (hop : binop (.ar (if up then .add else .sub)) (t.promoteBits w) .int (fieldInt t x) 1 = .ok r) (pc c : Nat)
    (hK : (compilePostBit C P E.loc O.at_ E.stk up t w bo l c).1.st ≤ E.K)
    (hc : CodeAt Pg pc (compilePostBit C P E.loc O.at_ E.stk up t w bo l c).1.code) :
    ∃ s', Runs E.sym Pg (pc, s) (pc + (compilePostBit C P E.loc O.at_ E.stk up t w bo l c).1.code.length, s') ∧
      FieldIs s'.m a bo (BitVec.ofInt w (conv t r)) ∧ OtherBits a t.bytes bo w s.m s'.m ∧
      InReg t (fieldInt t x) (s'.r .ax) ∧ KeptBut E σ1 a t.bytes s s' := by
  obtain ⟨S, H⟩ := setup80 C P E O hC h
  obtain ⟨y, hbits, hN⟩ := inc80 C E t w hpos hwt x up r σ1 hop
  obtain ⟨s', rr, _, q1, q2⟩ := postB_does S ⟨ht, hw, hn, hu⟩ ⟨hpos, hfit, hgood⟩ c H hf he ha hx hN hK pc hc
  rw [hbits] at q1
  exact ⟨s', rr, q1.fld, q1.oth, (reps_inReg _ _ _).1 q2, q1.rel, q1.bp, q1.mem⟩

/-- The same for `l++;` and `l--;`, whose value is not used. -/
theorem C80_postfix_statement (hC : C.Ok) (addr : Nat → Word) (Pg : List Line) (σ σ1 : Store) (s : St) (h : Started P E O addr Pg σ s)
    (l : LV) (t : CTy) (ht : l.ty P = some (.int t)) (hw : l.Wf) (hn : l.NoConv) (hu : Usable E C.opt l.exprs)
    (w bo : Nat) (hpos : 1 ≤ w) (hwt : w ≤ t.width) (hfit : bo + w ≤ 8 * t.bytes) (hgood : t.bytes = 8 → ¬ (bo % 8 = 0 ∧ (w = 8 ∨ w = 16 ∨ w = 32)))
    (up : Bool) (hf : l.Fine P ⟨addr, s.m⟩ E σ)
    (a : Word) (he : l.eval P ⟨addr, s.m⟩ σ = .ok (a, σ1)) (ha : E.Apart a t.bytes)
    (x : BitVec w) (hx : FieldIs s.m a bo x)
    (r : Int) (hop : binop (.ar (if up then .add else .sub)) (t.promoteBits w) .int (fieldInt t x) 1 = .ok r) (pc c : Nat)
    (hK : (compilePostBitVoid C P E.loc O.at_ E.stk up t w bo l c).1.st ≤ E.K)
    (hc : CodeAt Pg pc (compilePostBitVoid C P E.loc O.at_ E.stk up t w bo l c).1.code) :
    ∃ s', Runs E.sym Pg (pc, s) (pc + (compilePostBitVoid C P E.loc O.at_ E.stk up t w bo l c).1.code.length, s') ∧
      FieldIs s'.m a bo (BitVec.ofInt w (conv t r)) ∧ OtherBits a t.bytes bo w s.m s'.m ∧ KeptBut E σ1 a t.bytes s s' := by
  obtain ⟨S, H⟩ := setup80 C P E O hC h
  obtain ⟨y, hbits, hN⟩ := inc80 C E t w hpos hwt x up r σ1 hop
  obtain ⟨s', rr, _, q1, q2⟩ := opB_does S ⟨ht, hw, hn, hu⟩ ⟨hpos, hfit, hgood⟩ c H hf he ha hx hN true hK pc hc
  rw [hbits] at q1
  exact ⟨s', rr, q1.fld, q1.oth, q1.rel, q1.bp, q1.mem⟩

private theorem opB_fresh (n : Node) (f : BF.BF) (l : ANode) (b : Bool) : Fresh (genOpB C P E.loc O.at_ E.stk n f l b) :=
  fresh_seq (genA_fresh _ _ _ _ _ _ _ _) (fresh_tmp (fresh_seq (fresh_inss _) (gen_fresh _ _ _ _ _ _ _)))
private theorem postB_fresh (n : Node) (f : BF.BF) (l : ANode) : Fresh (genPostB C P E.loc O.at_ E.stk n f l) :=
  fresh_seq (genA_fresh _ _ _ _ _ _ _ _) (fresh_seq (fresh_inss _) (fresh_tmp (fresh_tmp (gen_fresh _ _ _ _ _ _ _))))

/-- The code defines no label twice, and all its labels are new. -/
theorem C80_labels (l : LV) (op : BinOp) (e : Expr) (t : CTy) (w bo : Nat) (up isVoid : Bool) (c : Nat) (g : G)
    (hg : g = compileOpBit C P E.loc O.at_ E.stk isVoid op t w bo l e ∨ g = compilePreBit C P E.loc O.at_ E.stk isVoid up t w bo l ∨
      g = compilePostBit C P E.loc O.at_ E.stk up t w bo l ∨ g = compilePostBitVoid C P E.loc O.at_ E.stk up t w bo l) :
    UniqueLabels (g c).1.code ∧
    ∀ l, Line.lab l ∈ (g c).1.code → ∃ n, c ≤ n ∧ n < (g c).2 ∧
        (l = .short n ∨ l = .fall n ∨ l = .else_ n ∨ l = .end_ n ∨ l = .begin n ∨ l = .rtn n) := by
  have hF : Fresh g := by
    rcases hg with rfl | rfl | rfl | rfl
    · exact opB_fresh C P E O _ _ _ _
    · exact opB_fresh C P E O _ _ _ _
    · exact postB_fresh C P E O _ _ _
    · exact opB_fresh C P E O _ _ _ _
  refine ⟨unique_of_nodup _ (hF c).2.1, fun l hl => ?_⟩
  obtain ⟨n, h1, h2, h3⟩ := (hF c).2.2 l (List.mem_filterMap.2 ⟨_, hl, rfl⟩)
  refine ⟨n, h2, h3, ?_⟩
  cases l <;> simp only [lnum, Option.some.injEq, reduceCtorEq] at h1 <;> subst h1 <;> simp

end

/-! A case meeting the hypotheses: the field `int x : 5` at bit 3 of the unit `a[z - 99].next->v[2]` of the
example of C60, whose value is -1. -/

theorem bopField : FieldIs acMem 0x7ffeffb8 3 (BitVec.ofInt 5 (-1)) := by
  have h : ∀ i < 5, memBit acMem 0x7ffeffb8 (3 + i) = (BitVec.ofInt 5 (-1)).getLsbD i := by decide
  exact h

example : fieldInt .int (BitVec.ofInt 5 (-1)) = -1 ∧ fieldInt .int (BitVec.ofInt 5 (conv .int 599)) = -9 ∧ fieldInt .int (BitVec.ofInt 5 (conv .int (-2))) = -2 := by decide

/-- `x += y * 3`, with `y` 200: the field becomes 599 cut to five bits, which is -9, and so does %rax. -/
example : ∃ s', Runs exEnv.sym (compileOpBit adC acP exEnv.loc acO.at_ 16 false (.ar .add) .int 5 3 acLV aoExpr 0).1.code (0, acState)
      (0 + (compileOpBit adC acP exEnv.loc acO.at_ 16 false (.ar .add) .int 5 3 acLV aoExpr 0).1.code.length, s') ∧
      FieldIs s'.m 0x7ffeffb8 3 (BitVec.ofInt 5 (conv .int 599)) ∧ OtherBits 0x7ffeffb8 4 3 5 acMem s'.m ∧
      (false = false → InReg .int (fieldInt .int (BitVec.ofInt 5 (conv .int 599))) (s'.r .ax)) ∧ KeptBut exEnv exStore 0x7ffeffb8 4 acState s' :=
  C80_compound adC acP exEnv acO adC_ok acAddr _ exStore exStore exStore acState
    (acStarted 0 _ (C80_labels adC acP exEnv acO acLV (.ar .add) aoExpr .int 5 3 true false 0 _ (.inl rfl)).1)
    acLV .int rfl acLV_wf ⟨⟨trivial, trivial⟩, trivial⟩ (acLV_usable _) 5 3 (by decide) (by decide) (by decide) (by decide)
    (.ar .add) aoExpr (show Expr.Wf _ by decide) aoUsable acLV_fine
    0x7ffeffb8 acLV_eval (apart_of _ _ (by decide)) (BitVec.ofInt 5 (-1)) bopField 600 acRhs 599 (by decide) (.inl (by decide)) false 0 0 (by decide) (fun i _ => by rw [Nat.zero_add])

/-- `x--`: the field becomes -2, %rax is -1. -/
example : ∃ s', Runs exEnv.sym (compilePostBit adC acP exEnv.loc acO.at_ 16 false .int 5 3 acLV 0).1.code (0, acState)
      (0 + (compilePostBit adC acP exEnv.loc acO.at_ 16 false .int 5 3 acLV 0).1.code.length, s') ∧
      FieldIs s'.m 0x7ffeffb8 3 (BitVec.ofInt 5 (conv .int (-2))) ∧ OtherBits 0x7ffeffb8 4 3 5 acMem s'.m ∧
      InReg .int (fieldInt .int (BitVec.ofInt 5 (-1))) (s'.r .ax) ∧ KeptBut exEnv exStore 0x7ffeffb8 4 acState s' :=
  C80_postfix adC acP exEnv acO adC_ok acAddr _ exStore exStore acState
    (acStarted 0 _ (C80_labels adC acP exEnv acO acLV (.ar .add) aoExpr .int 5 3 false false 0 _ (.inr (.inr (.inl rfl)))).1)
    acLV .int rfl acLV_wf ⟨⟨trivial, trivial⟩, trivial⟩ (acLV_usable _) 5 3 (by decide) (by decide) (by decide) (by decide)
    false acLV_fine
    0x7ffeffb8 acLV_eval (apart_of _ _ (by decide)) (BitVec.ofInt 5 (-1)) bopField (-2) (by decide) 0 0 (by decide) (fun i _ => by rw [Nat.zero_add])

/-! ### Where the compiler departs from C -/

/-- `struct { unsigned x : 3; } s` in place of the array, and -1. -/
def bopP : ODecls where
  structs _ := ⟨4, [(0, .int .uint)]⟩
  objs _ := .struct 0
  ints := exΓ
def bopLV : LV := .member (.var 0) 0
def bopMinus : Expr := .un .neg (.num .int 1)
def bopMem : Word → BitVec 8 := wr exState.m 0x7ffeff80 4 2
def bopState : St := ⟨exState.r, bopMem, none⟩

/-- With `s.x` 2, C says that `s.x /= -1` divides the `int` 2 and stores -2, which is 6 in three bits, and so
does `s.x = s.x / -1`; the code divides 2 by the `unsigned` 4294967295 and stores 0. -/
theorem C80_division_departs :
    FieldIs bopMem 0x7ffeff80 0 (2 : BitVec 3) ∧
    binop (.ar .div) (CTy.uint.promoteBits 3) .int 2 (-1) = .ok (-2) ∧ BitVec.ofInt 3 (conv .uint (-2)) = 6 ∧
    ∃ s', Runs exEnv.sym (compileOpBit adC bopP exEnv.loc acO.at_ 16 false (.ar .div) .uint 3 0 bopLV bopMinus 0).1.code (0, bopState)
        (0 + (compileOpBit adC bopP exEnv.loc acO.at_ 16 false (.ar .div) .uint 3 0 bopLV bopMinus 0).1.code.length, s') ∧
      FieldIs s'.m 0x7ffeff80 0 (0 : BitVec 3) := by
  have hx : FieldIs bopMem 0x7ffeff80 0 (2 : BitVec 3) := by
    have h : ∀ i < 3, memBit bopMem 0x7ffeff80 (0 + i) = (2 : BitVec 3).getLsbD i := by decide
    exact h
  refine ⟨hx, by decide, by decide, ?_⟩
  have lt3 : ∀ x, x < 3 → x = 0 ∨ x = 1 ∨ x = 2 := by omega
  have hrel : Rel exEnv exStore bopMem := by
    intro x hx
    rcases lt3 x hx with rfl | rfl | rfl <;> decide
  have hS : Started bopP exEnv acO acAddr (compileOpBit adC bopP exEnv.loc acO.at_ 16 false (.ar .div) .uint 3 0 bopLV bopMinus 0).1.code exStore bopState :=
    ⟨exEnv_ok, (C80_labels adC bopP exEnv acO bopLV (.ar .div) bopMinus .uint 3 0 true false 0 _ (.inl rfl)).1, rfl, acO_ok, exStoreOk, rfl, hrel⟩
  obtain ⟨S, H⟩ := setup80 adC bopP exEnv acO adC_ok hS
  have hfine : bopLV.Fine bopP ⟨acAddr, bopMem⟩ exEnv exStore := ⟨⟨stays_some _ _ _ exStore _ 0 0x7ffeff80 rfl rfl (by decide), trivial⟩, trivial⟩
  have hus : Usable exEnv adC.opt [bopMinus] := by
    intro e he
    simp only [List.mem_singleton] at he
    subst he
    exact ⟨by intro x hx; simp [bopMinus, Expr.vars] at hx, fun _ => trivial⟩
  obtain ⟨hr, hty⟩ := rhs80 adC bopP exEnv acO S (show bopMinus.Wf by decide) hus exStoreOk (show ceval exΓ bopMinus exStore = .ok (-1, exStore) from rfl)
  have hN := AGen.null_ok (C := adC) (E := exEnv) (w := 0) (akind (.ar .div) (ity .uint)) .uint (fieldInt .uint (2 : BitVec 3)) (by decide) _ hr (by rw [hty]; decide)
  obtain ⟨s', rr, _, q1, q2⟩ := opB_does S (l := bopLV) (T := .int .uint) ⟨rfl, trivial, trivial, fun e he => by simp [bopLV, LV.exprs] at he⟩ ⟨by decide, by decide, by decide⟩ 0 H hfine
    (show bopLV.eval bopP ⟨acAddr, bopMem⟩ exStore = .ok (0x7ffeff80, exStore) from rfl) (apart_of _ _ (by decide)) hx hN false (by decide) 0 (fun i _ => by rw [Nat.zero_add]; rfl)
  exact ⟨s', rr, q1.fld⟩

end Slimcc.Props
