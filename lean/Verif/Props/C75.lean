import Verif.Lemmas.PtrOp
import Verif.Props.C72
/-!
C75: compiled `p += i`, `p -= i`, `++p`, `--p`, `p++` and `p--` for pointers that are variables, members, array
elements or what pointers point to.

`PE.eval` (Spec/Lvalue) is the value of a pointer expression of C: `.value l` reads the pointer object `l`,
`.add p i` and `.sub p i` move by `i` elements. So the statements say that `p += i` gives the object the value
of `p + i`. `compilePtrOp`, `compilePtrPre`, `compilePtrPost`, `compilePtrVoid` and `compilePtrPostVoid`
(Model/PtrOp) are the code generated, the last two for statements, where the value is not used. `Started`,
`KeptBut` and the restrictions on designators are those of C60.
-/
set_option autoImplicit false
namespace Slimcc.Props
open Slimcc Slimcc.Spec Slimcc.Spec.CTy Slimcc.Ty Slimcc.X86 Slimcc.Gen Slimcc.Addr Slimcc.AGen

/-- `l + e` or `l - e` for a pointer object `l`. -/
def moved (up : Bool) (l : LV) (e : Expr) : PE := if up then .add (.value l) (.expr e) else .sub (.value l) (.expr e)

/-- A pointer is loaded like an integer of its size. -/
theorem ptr_load (P : ODecls) (t u : OTy) (e : Expr) : loadA (.ptr t) = loadA (.int (idxTy P u e)) := by
  have key : ∀ v : CTy, loadA (.ptr t) = loadA (.int (CTy.common v.promote (CTy.promote .long))) := by intro v; cases v <;> rfl
  exact key (e.ty P.ints)

section
variable (C : Cfg) (P : ODecls) (E : Env) (O : Objects)

private theorem setup75 {addr : Nat → Word} {Pg : List Line} {σ : Store} {s : St} (hC : C.Ok) (h : Started P E O addr Pg σ s) :
    Setup C P E Pg ⟨addr, s.m⟩ O ∧ Here E ⟨addr, s.m⟩ σ s :=
  ⟨⟨hC, h.env, h.labels, h.ints, h.objs⟩, h.store, h.bp, h.rel, fun _ _ => rfl⟩

private theorem pe75 {M : Machine} {up : Bool} {l : LV} {t : OTy} {e : Expr} {σ σ1 σ2 : Store} {a b : Word} (ht : l.ty P = some (.ptr t))
    (he : l.eval P M σ = .ok (a, σ1)) (hb : (moved up l e).eval P M σ = .ok (b, σ2)) :
    ∃ v, ceval P.ints e σ1 = .ok (v, σ2) ∧ b = move up (BitVec.ofNat 64 (M.word a 8)) (stride P (some t) v) := by
  have hp : (PE.value l).pointee P = some t := by rw [PE.pointee, ht]
  cases up
  · have hb : (PE.sub (.value l) (.expr e)).eval P M σ = .ok (b, σ2) := hb
    rw [PE.eval, PE.eval, he, hp] at hb
    obtain ⟨⟨v, σ'⟩, e1, e2⟩ := res_bind (r := ceval P.ints e σ1) hb
    injection e2 with e2; injection e2 with e2 e3
    subst e3
    exact ⟨v, e1, e2.symm⟩
  · have hb : (PE.add (.value l) (.expr e)).eval P M σ = .ok (b, σ2) := hb
    rw [PE.eval, PE.eval, he, hp] at hb
    obtain ⟨⟨v, σ'⟩, e1, e2⟩ := res_bind (r := ceval P.ints e σ1) hb
    injection e2 with e2; injection e2 with e2 e3
    subst e3
    exact ⟨v, e1, e2.symm⟩

private theorem word75 {M : Machine} {σ : Store} {a x b : Word} {s : St} (h : Wrote E M σ a 8 x s) (hx : x = b) : (Machine.mk M.addr s.m).word a 8 = b.toNat := by
  have e := congrArg BitVec.toNat (wrote_word (by decide) h)
  rwa [zx8, hx, BitVec.toNat_ofNat, Nat.mod_eq_of_lt (word_lt _ 8 a)] at e

private theorem val75 {M : Machine} {up : Bool} {t : OTy} {e : Expr} {a x : Word} {v v' : Int} (h : Low 8 (conv (idxTy P t e) (step up (M.int (idxTy P t e) a) v')) x)
    (hv : BitVec.ofInt 64 v' = stride P (some t) v) : x = move up (BitVec.ofNat 64 (M.word a 8)) (stride P (some t) v) := by
  obtain ⟨w8, w64, wb⟩ := idxTy_wide (P := P) t e
  rw [h.eq8, ofInt_conv _ w64 wb, ofInt_step, hv, int_wide _ w8]

/-- The code of `l += e` and `l -= e` gives the pointer the value of `l + e` or `l - e`, leaves that in %rax,
and changes no other object. -/
theorem C75_compound (hC : C.Ok) (addr : Nat → Word) (Pg : List Line) (σ σ1 σ2 : Store) (s : St) (h : Started P E O addr Pg σ s)
    (l : LV) (t : OTy) (ht : l.ty P = some (.ptr t)) (hw : l.Wf) (hn : l.NoConv) (hu : Usable E C.opt l.exprs) (hs : InRange .long (P.sizeof t))
    (up : Bool) (e : Expr) (ew : e.Wf) (eu : Usable E C.opt [e]) (hf : l.Fine P ⟨addr, s.m⟩ E σ)
    (a : Word) (he : l.eval P ⟨addr, s.m⟩ σ = .ok (a, σ1)) (ha : E.Apart a 8)
    (b : Word) (hb : (moved up l e).eval P ⟨addr, s.m⟩ σ = .ok (b, σ2)) (pc c : Nat)
    (hK : (compilePtrOp C P E.loc O.at_ E.stk up t l e c).1.st ≤ E.K)
    (hc : CodeAt Pg pc (compilePtrOp C P E.loc O.at_ E.stk up t l e c).1.code) :
    ∃ s', Runs E.sym Pg (pc, s) (pc + (compilePtrOp C P E.loc O.at_ E.stk up t l e c).1.code.length, s') ∧
      (Machine.mk addr s'.m).word a 8 = b.toNat ∧ s'.r .ax = b ∧ KeptBut E σ2 a 8 s s' := by
  obtain ⟨S, H⟩ := setup75 C P E O hC h
  have hσ1 : StoreOk P.ints σ1 := sokL C.hs _ l σ σ1 a hw (S.sok H) he
  obtain ⟨v, hev, rfl⟩ := pe75 P ht he hb
  obtain ⟨v', hr, hty, hv'⟩ := idx_rhs S t hs ew eu hσ1 hev
  obtain ⟨w8, w64, wb⟩ := idxTy_wide (P := P) t e
  obtain ⟨s', r, _, _, q1, q2⟩ := opN_does S ⟨ht, hw, hn, hu⟩ c H hf he (by rw [w8]; exact ha)
    (nullPtr_ok _ w8 up _ (int_range_wide _ w8 w64 a) hty hr) hK pc hc
  have q2 := q2.low
  rw [← bytes_size, w8] at q2
  rw [w8] at q1
  have e := val75 P q2 hv'
  exact ⟨s', r, word75 E q1 e, e, q1.rel, q1.bp, q1.mem⟩

/-- The code of `++l` and `--l`. -/
theorem C75_prefix (hC : C.Ok) (addr : Nat → Word) (Pg : List Line) (σ σ1 : Store) (s : St) (h : Started P E O addr Pg σ s)
    (l : LV) (t : OTy) (ht : l.ty P = some (.ptr t)) (hw : l.Wf) (hn : l.NoConv) (hu : Usable E C.opt l.exprs) (hs : InRange .long (P.sizeof t))
    (up : Bool) (hf : l.Fine P ⟨addr, s.m⟩ E σ)
    (a : Word) (he : l.eval P ⟨addr, s.m⟩ σ = .ok (a, σ1)) (ha : E.Apart a 8)
    (b : Word) (hb : (moved up l (.num .int 1)).eval P ⟨addr, s.m⟩ σ = .ok (b, σ1)) (pc c : Nat)
    (hK : (compilePtrPre C P E.loc O.at_ E.stk up t l c).1.st ≤ E.K)
    (hc : CodeAt Pg pc (compilePtrPre C P E.loc O.at_ E.stk up t l c).1.code) :
    ∃ s', Runs E.sym Pg (pc, s) (pc + (compilePtrPre C P E.loc O.at_ E.stk up t l c).1.code.length, s') ∧
      (Machine.mk addr s'.m).word a 8 = b.toNat ∧ s'.r .ax = b ∧ KeptBut E σ1 a 8 s s' :=
  C75_compound C P E O hC addr Pg σ σ1 σ1 s h l t ht hw hn hu hs up (.num .int 1) (by decide)
    (fun e he => by
      simp only [List.mem_singleton] at he
      subst he
      exact ⟨by intro x hx; simp [Expr.vars] at hx, fun _ => trivial⟩)
    hf a he ha b hb pc c hK hc

private theorem one_usable (d : Int) : Usable E C.opt [.num .int d] := fun e he => by
  simp only [List.mem_singleton] at he
  subst he
  exact ⟨by intro x hx; simp [Expr.vars] at hx, fun _ => trivial⟩

private theorem stride_neg (t : OTy) (up : Bool) (x : Word) : move true x (stride P (some t) (if up then 1 else -1)) = move up x (stride P (some t) 1) := by
  cases up
  · show x + stride P (some t) (-1) = x - stride P (some t) 1
    unfold stride
    rw [Int.neg_mul, BitVec.ofInt_neg, ← BitVec.sub_eq_add_neg]
  · rfl

private theorem stride_back (t : OTy) (up : Bool) (x : Word) :
    move true (move true x (stride P (some t) (if up then 1 else -1))) (stride P (some t) (-(if up then 1 else -1))) = x := by
  show x + stride P (some t) (if up then 1 else -1) + stride P (some t) (-(if up then 1 else -1)) = x
  unfold stride
  rw [Int.neg_mul, BitVec.ofInt_neg, ← BitVec.sub_eq_add_neg, BitVec.add_sub_cancel]

/-- The code of `l++` and `l--` gives the pointer the value of `l + 1` or `l - 1`, and leaves its old value in
%rax. -/
theorem C75_postfix (hC : C.Ok) (addr : Nat → Word) (Pg : List Line) (σ σ1 : Store) (s : St) (h : Started P E O addr Pg σ s)
    (l : LV) (t : OTy) (ht : l.ty P = some (.ptr t)) (hw : l.Wf) (hn : l.NoConv) (hu : Usable E C.opt l.exprs) (hs : InRange .long (P.sizeof t))
    (up : Bool) (hf : l.Fine P ⟨addr, s.m⟩ E σ)
    (a : Word) (he : l.eval P ⟨addr, s.m⟩ σ = .ok (a, σ1)) (ha : E.Apart a 8)
    (old : Word) (hold : (PE.value l).eval P ⟨addr, s.m⟩ σ = .ok (old, σ1))
    (b : Word) (hb : (moved up l (.num .int 1)).eval P ⟨addr, s.m⟩ σ = .ok (b, σ1)) (pc c : Nat)
    (hK : (compilePtrPost C P E.loc O.at_ E.stk up t l c).1.st ≤ E.K)
    (hc : CodeAt Pg pc (compilePtrPost C P E.loc O.at_ E.stk up t l c).1.code) :
    ∃ s', Runs E.sym Pg (pc, s) (pc + (compilePtrPost C P E.loc O.at_ E.stk up t l c).1.code.length, s') ∧
      (Machine.mk addr s'.m).word a 8 = b.toNat ∧ s'.r .ax = old ∧ KeptBut E σ1 a 8 s s' := by
  obtain ⟨S, H⟩ := setup75 C P E O hC h
  have hσ1 : StoreOk P.ints σ1 := sokL C.hs _ l σ σ1 a hw (S.sok H) he
  obtain ⟨v, hev, rfl⟩ := pe75 P ht he hb
  have hev : Res.ok ((1 : Int), σ1) = .ok (v, σ1) := hev
  injection hev with hev; injection hev with hev
  subst hev
  have hold : old = BitVec.ofNat 64 ((Machine.mk addr s.m).word a 8) := by
    rw [PE.eval, he] at hold
    injection hold with hold; injection hold with hold
    exact hold.symm
  have hd : (Expr.num .int (if up then 1 else -1)).Wf ∧ (Expr.num .int (-(if up then 1 else -1))).Wf := by cases up <;> decide
  obtain ⟨v1, r1, ty1, e1⟩ := idx_rhs S t hs hd.1 (one_usable C E _) hσ1 (v := if up then 1 else -1) (σ' := σ1) rfl
  obtain ⟨v2, r2, ty2, e2⟩ := idx_rhs S t hs hd.2 (one_usable C E _) hσ1 (v := -(if up then 1 else -1)) (σ' := σ1) rfl
  obtain ⟨w8, w64, wb⟩ := idxTy_wide (P := P) t (.num .int (if up then 1 else -1))
  have hr := int_range_wide (M := ⟨addr, s.m⟩) _ w8 w64 a
  have n1 : NullOk C E (nullPtr .add (idxNode C P t (.num .int (if up then 1 else -1)))) _ _ _ _ _ := nullPtr_ok _ w8 true _ hr ty1 r1
  have n2 : NullOk C E (nullPtr .add (idxNode C P t (.num .int (-(if up then 1 else -1))))) (idxTy P t (.num .int (if up then 1 else -1)))
      (conv (idxTy P t (.num .int (if up then 1 else -1))) (step true ((Machine.mk addr s.m).int (idxTy P t (.num .int (if up then 1 else -1))) a) v1)) _ _ _ :=
    nullPtr_ok _ w8 true _ (conv_range _ _) ty2 r2
  rw [eq_of_ofInt (x := step true (conv _ _) v2) w64 wb hr (by rw [ofInt_step, ofInt_conv _ w64 wb, ofInt_step, e1, e2]; exact stride_back P t up _)] at n2
  have hK : (genPostN C P E.loc O.at_ E.stk (idxTy P t (.num .int (if up then 1 else -1))) (buildL C P l) (nullPtr .add (idxNode C P t (.num .int (if up then 1 else -1))))
    (nullPtr .add (idxNode C P t (.num .int (-(if up then 1 else -1))))) c).1.st ≤ E.K := hK
  obtain ⟨s', r, _, y, q1, q2, q3⟩ := postN_does S ⟨ht, hw, hn, hu⟩ c H hf he (by rw [w8]; exact ha) n1 (fun _ => n2) hK pc hc
  have q2 := q2.low
  rw [← bytes_size, w8] at q2
  have q3 := q3.low
  rw [← bytes_size, w8] at q3
  rw [w8] at q1
  have e := (val75 P q2 e1).trans (stride_neg P t up _)
  exact ⟨s', r, word75 E q1 e, by rw [q3.eq8, int_wide _ w8, hold], q1.rel, q1.bp, q1.mem⟩

/-- The same for `l += e;` and `l -= e;`, whose value is not used: the operation may be done in memory. -/
theorem C75_statement (hC : C.Ok) (addr : Nat → Word) (Pg : List Line) (σ σ1 σ2 : Store) (s : St) (h : Started P E O addr Pg σ s)
    (l : LV) (t : OTy) (ht : l.ty P = some (.ptr t)) (hw : l.Wf) (hn : l.NoConv) (hu : Usable E C.opt l.exprs) (hs : InRange .long (P.sizeof t))
    (up : Bool) (e : Expr) (ew : e.Wf) (eu : Usable E C.opt [e]) (hf : l.Fine P ⟨addr, s.m⟩ E σ)
    (a : Word) (he : l.eval P ⟨addr, s.m⟩ σ = .ok (a, σ1)) (ha : E.Apart a 8)
    (b : Word) (hb : (moved up l e).eval P ⟨addr, s.m⟩ σ = .ok (b, σ2)) (pc c : Nat)
    (hK : (compilePtrVoid C P E.loc O.at_ E.stk up t l e c).1.st ≤ E.K)
    (hc : CodeAt Pg pc (compilePtrVoid C P E.loc O.at_ E.stk up t l e c).1.code) :
    ∃ s', Runs E.sym Pg (pc, s) (pc + (compilePtrVoid C P E.loc O.at_ E.stk up t l e c).1.code.length, s') ∧
      (Machine.mk addr s'.m).word a 8 = b.toNat ∧ KeptBut E σ2 a 8 s s' := by
  obtain ⟨S, H⟩ := setup75 C P E O hC h
  have hσ1 : StoreOk P.ints σ1 := sokL C.hs _ l σ σ1 a hw (S.sok H) he
  obtain ⟨v, hev, rfl⟩ := pe75 P ht he hb
  obtain ⟨v', hr, hty, hv'⟩ := idx_rhs S t hs ew eu hσ1 hev
  obtain ⟨w8, w64, wb⟩ := idxTy_wide (P := P) t e
  obtain ⟨s', r, _, y, q1, q2⟩ := ptrVoid_does S ⟨ht, hw, hn, hu⟩ up c H hf he (by rw [w8]; exact ha) hr hty hK pc hc
  rw [w8] at q1 q2
  exact ⟨s', r, word75 E q1 (val75 P q2 hv'), q1.rel, q1.bp, q1.mem⟩

/-- The same for `l++;` and `l--;`. -/
theorem C75_postfix_statement (hC : C.Ok) (addr : Nat → Word) (Pg : List Line) (σ σ1 : Store) (s : St) (h : Started P E O addr Pg σ s)
    (l : LV) (t : OTy) (ht : l.ty P = some (.ptr t)) (hw : l.Wf) (hn : l.NoConv) (hu : Usable E C.opt l.exprs) (hs : InRange .long (P.sizeof t))
    (up : Bool) (hf : l.Fine P ⟨addr, s.m⟩ E σ)
    (a : Word) (he : l.eval P ⟨addr, s.m⟩ σ = .ok (a, σ1)) (ha : E.Apart a 8)
    (b : Word) (hb : (moved up l (.num .int 1)).eval P ⟨addr, s.m⟩ σ = .ok (b, σ1)) (pc c : Nat)
    (hK : (compilePtrPostVoid C P E.loc O.at_ E.stk up t l c).1.st ≤ E.K)
    (hc : CodeAt Pg pc (compilePtrPostVoid C P E.loc O.at_ E.stk up t l c).1.code) :
    ∃ s', Runs E.sym Pg (pc, s) (pc + (compilePtrPostVoid C P E.loc O.at_ E.stk up t l c).1.code.length, s') ∧
      (Machine.mk addr s'.m).word a 8 = b.toNat ∧ KeptBut E σ1 a 8 s s' := by
  obtain ⟨S, H⟩ := setup75 C P E O hC h
  have hσ1 : StoreOk P.ints σ1 := sokL C.hs _ l σ σ1 a hw (S.sok H) he
  obtain ⟨v, hev, rfl⟩ := pe75 P ht he hb
  have hev : Res.ok ((1 : Int), σ1) = .ok (v, σ1) := hev
  injection hev with hev; injection hev with hev
  subst hev
  have hd : (Expr.num .int (if up then 1 else -1)).Wf := by cases up <;> decide
  obtain ⟨v1, r1, ty1, e1⟩ := idx_rhs S t hs hd (one_usable C E _) hσ1 (v := if up then 1 else -1) (σ' := σ1) rfl
  obtain ⟨w8, w64, wb⟩ := idxTy_wide (P := P) t (.num .int (if up then 1 else -1))
  obtain ⟨s', r, _, y, q1, q2⟩ := ptrVoid_does S ⟨ht, hw, hn, hu⟩ true c H hf he (by rw [w8]; exact ha) r1 ty1 hK pc hc
  rw [w8] at q1 q2
  exact ⟨s', r, word75 E q1 ((val75 P q2 e1).trans (stride_neg P t up _)), q1.rel, q1.bp, q1.mem⟩

/-- The code defines no label twice, and all its labels are new. -/
theorem C75_labels (l : LV) (e : Expr) (t : OTy) (up : Bool) (c : Nat) (g : G)
    (hg : g = compilePtrOp C P E.loc O.at_ E.stk up t l e ∨ g = compilePtrPre C P E.loc O.at_ E.stk up t l ∨ g = compilePtrPost C P E.loc O.at_ E.stk up t l ∨
      g = compilePtrVoid C P E.loc O.at_ E.stk up t l e ∨ g = compilePtrPostVoid C P E.loc O.at_ E.stk up t l) :
    UniqueLabels (g c).1.code ∧
    ∀ l, Line.lab l ∈ (g c).1.code → ∃ n, c ≤ n ∧ n < (g c).2 ∧
        (l = .short n ∨ l = .fall n ∨ l = .else_ n ∨ l = .end_ n ∨ l = .begin n ∨ l = .rtn n) := by
  have hV : ∀ op t l e, Fresh (genPtrVoid C P E.loc O.at_ E.stk op t l e) := by
    intro op t l e
    unfold genPtrVoid
    cases aluOf op with
    | none => exact opN_fresh _ _ _
    | some ins =>
      dsimp only
      split
      · exact memopArith_fresh _ _ _ _
      · exact opN_fresh _ _ _
  have hF : Fresh g := by
    rcases hg with rfl | rfl | rfl | rfl | rfl
    · unfold compilePtrOp; exact opN_fresh _ _ _
    · unfold compilePtrPre compilePtrOp; exact opN_fresh _ _ _
    · unfold compilePtrPost; exact postN_fresh _ _ _ _
    · unfold compilePtrVoid; exact hV _ _ _ _
    · unfold compilePtrPostVoid; exact hV _ _ _ _
  refine ⟨unique_of_nodup _ (hF c).2.1, fun l hl => ?_⟩
  obtain ⟨n, h1, h2, h3⟩ := (hF c).2.2 l (List.mem_filterMap.2 ⟨_, hl, rfl⟩)
  refine ⟨n, h2, h3, ?_⟩
  cases l <;> simp only [lnum, Option.some.injEq, reduceCtorEq] at h1 <;> subst h1 <;> simp

end
/-! A case meeting the hypotheses: the pointer `a[z - 99].next` of the example of C60, which points to `a[2]`;
a structure has 24 bytes. -/

def poLV : LV := .member acNode 1
def poIdx : Expr := .bin (.ar .sub) (.var 1) (.num .int 198)
theorem poLV_wf : poLV.Wf := ⟨trivial, show Expr.Wf _ by decide⟩
theorem poLV_usable (b : Bool) : Usable exEnv b poLV.exprs := by
  intro e he
  simp [poLV, acNode, LV.exprs, PE.exprs, IE.exprs] at he
  subst he
  exact ⟨by intro x hx; simp [Expr.vars] at hx; show x < 3; omega, fun _ => ⟨trivial, trivial, by simp [Expr.vars, Expr.assigned]⟩⟩
theorem poUsable : Usable exEnv true [poIdx] := by
  intro e he
  simp only [List.mem_singleton] at he
  subst he
  exact ⟨by intro x hx; simp [poIdx, Expr.vars] at hx; show x < 3; omega, fun _ => ⟨trivial, trivial, by simp [Expr.vars, Expr.assigned]⟩⟩
theorem poMoved : (moved true poLV poIdx).eval acP acM exStore = .ok (0x7ffeffe0, exStore) := by
  show (do let (a, σ) ← PE.eval acP acM (.value (.member acNode 1)) exStore
           let (v, σ) ← ceval exΓ poIdx σ
           Res.ok (a + stride acP (some (.struct 0)) v, σ)) = _
  rw [acNext_eval]; rfl
theorem poBack : (moved false poLV (.num .int 1)).eval acP acM exStore = .ok (0x7ffeff98, exStore) := by
  show (do let (a, σ) ← PE.eval acP acM (.value (.member acNode 1)) exStore
           let (v, σ) ← ceval exΓ (.num .int 1) σ
           Res.ok (a - stride acP (some (.struct 0)) v, σ)) = _
  rw [acNext_eval]; rfl

/-- `a[z - 99].next += y - 198`, with `y` 200: two structures further. -/
example : ∃ s', Runs exEnv.sym (compilePtrOp adC acP exEnv.loc acO.at_ 16 true (.struct 0) poLV poIdx 0).1.code (0, acState)
      (0 + (compilePtrOp adC acP exEnv.loc acO.at_ 16 true (.struct 0) poLV poIdx 0).1.code.length, s') ∧
      (Machine.mk acAddr s'.m).word 0x7ffeffa8 8 = 0x7ffeffe0 ∧ s'.r .ax = 0x7ffeffe0 ∧ KeptBut exEnv exStore 0x7ffeffa8 8 acState s' :=
  C75_compound adC acP exEnv acO adC_ok acAddr _ exStore exStore exStore acState
    (acStarted 0 _ (C75_labels adC acP exEnv acO poLV poIdx (.struct 0) true 0 _ (.inl rfl)).1)
    poLV (.struct 0) rfl poLV_wf ⟨trivial, trivial⟩ (poLV_usable _) (by decide) true poIdx (show Expr.Wf _ by decide) poUsable acNode_fine
    0x7ffeffa8 rfl (apart_of _ _ (by decide)) 0x7ffeffe0 poMoved 0 0 (by decide) (fun i _ => by rw [Nat.zero_add])

/-- The same as a statement; the addition is done in memory. -/
example : ∃ s', Runs exEnv.sym (compilePtrVoid adC acP exEnv.loc acO.at_ 16 true (.struct 0) poLV poIdx 0).1.code (0, acState)
      (0 + (compilePtrVoid adC acP exEnv.loc acO.at_ 16 true (.struct 0) poLV poIdx 0).1.code.length, s') ∧
      (Machine.mk acAddr s'.m).word 0x7ffeffa8 8 = 0x7ffeffe0 ∧ KeptBut exEnv exStore 0x7ffeffa8 8 acState s' :=
  C75_statement adC acP exEnv acO adC_ok acAddr _ exStore exStore exStore acState
    (acStarted 0 _ (C75_labels adC acP exEnv acO poLV poIdx (.struct 0) true 0 _ (.inr (.inr (.inr (.inl rfl))))).1)
    poLV (.struct 0) rfl poLV_wf ⟨trivial, trivial⟩ (poLV_usable _) (by decide) true poIdx (show Expr.Wf _ by decide) poUsable acNode_fine
    0x7ffeffa8 rfl (apart_of _ _ (by decide)) 0x7ffeffe0 poMoved 0 0 (by decide) (fun i _ => by rw [Nat.zero_add])

/-- `a[z - 99].next--`: one structure back, and %rax is the old value. -/
example : ∃ s', Runs exEnv.sym (compilePtrPost adC acP exEnv.loc acO.at_ 16 false (.struct 0) poLV 0).1.code (0, acState)
      (0 + (compilePtrPost adC acP exEnv.loc acO.at_ 16 false (.struct 0) poLV 0).1.code.length, s') ∧
      (Machine.mk acAddr s'.m).word 0x7ffeffa8 8 = 0x7ffeff98 ∧ s'.r .ax = 0x7ffeffb0 ∧ KeptBut exEnv exStore 0x7ffeffa8 8 acState s' :=
  C75_postfix adC acP exEnv acO adC_ok acAddr _ exStore exStore acState
    (acStarted 0 _ (C75_labels adC acP exEnv acO poLV poIdx (.struct 0) false 0 _ (.inr (.inr (.inl rfl)))).1)
    poLV (.struct 0) rfl poLV_wf ⟨trivial, trivial⟩ (poLV_usable _) (by decide) false acNode_fine
    0x7ffeffa8 rfl (apart_of _ _ (by decide)) 0x7ffeffb0 acNext_eval 0x7ffeff98 poBack 0 0 (by decide) (fun i _ => by rw [Nat.zero_add])

/-- `--a[z - 99].next`. -/
example : ∃ s', Runs exEnv.sym (compilePtrPre adC acP exEnv.loc acO.at_ 16 false (.struct 0) poLV 0).1.code (0, acState)
      (0 + (compilePtrPre adC acP exEnv.loc acO.at_ 16 false (.struct 0) poLV 0).1.code.length, s') ∧
      (Machine.mk acAddr s'.m).word 0x7ffeffa8 8 = 0x7ffeff98 ∧ s'.r .ax = 0x7ffeff98 ∧ KeptBut exEnv exStore 0x7ffeffa8 8 acState s' :=
  C75_prefix adC acP exEnv acO adC_ok acAddr _ exStore exStore acState
    (acStarted 0 _ (C75_labels adC acP exEnv acO poLV poIdx (.struct 0) false 0 _ (.inr (.inl rfl))).1)
    poLV (.struct 0) rfl poLV_wf ⟨trivial, trivial⟩ (poLV_usable _) (by decide) false acNode_fine
    0x7ffeffa8 rfl (apart_of _ _ (by decide)) 0x7ffeff98 poBack 0 0 (by decide) (fun i _ => by rw [Nat.zero_add])

/-- `a[z - 99].next--;`. -/
example : ∃ s', Runs exEnv.sym (compilePtrPostVoid adC acP exEnv.loc acO.at_ 16 false (.struct 0) poLV 0).1.code (0, acState)
      (0 + (compilePtrPostVoid adC acP exEnv.loc acO.at_ 16 false (.struct 0) poLV 0).1.code.length, s') ∧
      (Machine.mk acAddr s'.m).word 0x7ffeffa8 8 = 0x7ffeff98 ∧ KeptBut exEnv exStore 0x7ffeffa8 8 acState s' :=
  C75_postfix_statement adC acP exEnv acO adC_ok acAddr _ exStore exStore acState
    (acStarted 0 _ (C75_labels adC acP exEnv acO poLV poIdx (.struct 0) false 0 _ (.inr (.inr (.inr (.inr rfl))))).1)
    poLV (.struct 0) rfl poLV_wf ⟨trivial, trivial⟩ (poLV_usable _) (by decide) false acNode_fine
    0x7ffeffa8 rfl (apart_of _ _ (by decide)) 0x7ffeff98 poBack 0 0 (by decide) (fun i _ => by rw [Nat.zero_add])

end Slimcc.Props
