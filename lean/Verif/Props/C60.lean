import Verif.Lemmas.AddrSet
import Verif.Lemmas.AddrLabels
import Verif.Props.C59
import Verif.Props.C30
/-!
C60: compiled accesses to members, array elements and what pointers point to.

`Spec/Lvalue` gives the address a designator stands for and the value of a pointer expression, from the
standard; `compileAddr`, `compileLV`, `compilePE`, `compileSetInt` and `compileSetPtr` (Model/AddrGen) are
the code generated for `&l`, for the value of `l`, for a pointer expression and for assignments; `Runs` is
execution on the processor of Model/X86. `Started` says that the processor stands before the code with the
integer variables in memory, `Kept` that only those and temporaries have changed.

`NoConv` excludes conversions between integers and pointers, `Fine` objects read on the way that overlap
integer variables, and distances within an object of 2 GiB or more.
-/
set_option autoImplicit false
namespace Slimcc.Props
open Slimcc Slimcc.Spec Slimcc.Spec.CTy Slimcc.Ty Slimcc.X86 Slimcc.Gen Slimcc.Addr Slimcc.AGen

section
variable (C : Cfg) (P : ODecls) (E : Env) (O : Objects)

private theorem setup {addr : Nat → Word} {Pg : List Line} {σ : Store} {s : St} (hC : C.Ok) (h : Started P E O addr Pg σ s) :
    Setup C P E Pg ⟨addr, s.m⟩ O ∧ Here E ⟨addr, s.m⟩ σ s :=
  ⟨⟨hC, h.env, h.labels, h.ints, h.objs⟩, h.store, h.bp, h.rel, fun _ _ => rfl⟩

private theorem kept {addr : Nat → Word} {σ' : Store} {s s' : St} (h : Here E ⟨addr, s.m⟩ σ' s') : Kept E σ' s s' :=
  ⟨h.rel, h.bp, h.mem⟩

/-- The code for the address of a designator leaves that address in %rax. -/
theorem C60_address (hC : C.Ok) (addr : Nat → Word) (Pg : List Line) (σ σ' : Store) (s : St) (h : Started P E O addr Pg σ s)
    (l : LV) (t : OTy) (ht : l.ty P = some t) (hw : l.Wf) (hn : l.NoConv) (hu : Usable E C.opt l.exprs)
    (hf : l.Fine P ⟨addr, s.m⟩ E σ) (a : Word) (he : l.eval P ⟨addr, s.m⟩ σ = .ok (a, σ')) (pc c : Nat)
    (hK : (compileAddr C P E.loc O.at_ E.stk l c).1.st ≤ E.K)
    (hc : CodeAt Pg pc (compileAddr C P E.loc O.at_ E.stk l c).1.code) :
    ∃ s', Runs E.sym Pg (pc, s) (pc + (compileAddr C P E.loc O.at_ E.stk l c).1.code.length, s') ∧
      s'.r .ax = a ∧ Kept E σ' s s' := by
  obtain ⟨S, H⟩ := setup C P E O hC h
  obtain ⟨s', r, _, q1, q2⟩ := addr_gives S ⟨ht, hw, hn, hu⟩ σ s σ' a c H hf he hK pc hc
  exact ⟨s', r, q2, kept E q1⟩

/-- The code for an integer object leaves its value in %rax. -/
theorem C60_read (hC : C.Ok) (addr : Nat → Word) (Pg : List Line) (σ σ' : Store) (s : St) (h : Started P E O addr Pg σ s)
    (l : LV) (t : CTy) (ht : l.ty P = some (.int t)) (hw : l.Wf) (hn : l.NoConv) (hu : Usable E C.opt l.exprs)
    (hf : l.Fine P ⟨addr, s.m⟩ E σ) (ha : l.Access P ⟨addr, s.m⟩ E σ t.bytes) (hv : l.Valid P ⟨addr, s.m⟩ σ t)
    (a : Word) (he : l.eval P ⟨addr, s.m⟩ σ = .ok (a, σ')) (pc c : Nat)
    (hK : (compileLV C P E.loc O.at_ E.stk l c).1.st ≤ E.K)
    (hc : CodeAt Pg pc (compileLV C P E.loc O.at_ E.stk l c).1.code) :
    ∃ s', Runs E.sym Pg (pc, s) (pc + (compileLV C P E.loc O.at_ E.stk l c).1.code.length, s') ∧
      InReg t ((Machine.mk addr s.m).int t a) (s'.r .ax) ∧ Kept E σ' s s' := by
  obtain ⟨S, H⟩ := setup C P E O hC h
  obtain ⟨s', r, _, q1, q2⟩ := val_gives S ⟨ht, hw, hn, hu⟩ σ s σ' a c H ⟨hf, ha, hv⟩ he hK pc hc
  exact ⟨s', r, (reps_inReg _ _ _).1 q2, kept E q1⟩

/-- The code for a pointer expression, among them pointers read from objects, leaves its value in
%rax. -/
theorem C60_pointer (hC : C.Ok) (addr : Nat → Word) (Pg : List Line) (σ σ' : Store) (s : St) (h : Started P E O addr Pg σ s)
    (p : PE) (t : OTy) (ht : p.pointee P = some t) (hw : p.Wf) (hn : p.NoConv) (hu : Usable E C.opt p.exprs)
    (hf : p.Fine P ⟨addr, s.m⟩ E σ) (a : Word) (he : p.eval P ⟨addr, s.m⟩ σ = .ok (a, σ')) (pc c : Nat)
    (hK : (compilePE C P E.loc O.at_ E.stk p c).1.st ≤ E.K)
    (hc : CodeAt Pg pc (compilePE C P E.loc O.at_ E.stk p c).1.code) :
    ∃ s', Runs E.sym Pg (pc, s) (pc + (compilePE C P E.loc O.at_ E.stk p c).1.code.length, s') ∧
      s'.r .ax = a ∧ Kept E σ' s s' := by
  obtain ⟨S, H⟩ := setup C P E O hC h
  obtain ⟨s', r, _, q1, q2⟩ := ptr_gives S ⟨ht, hw, hn, hu⟩ σ s σ' a c H hf he hK pc hc
  exact ⟨s', r, q2, kept E q1⟩

/-- The code of `l = i` gives the object the converted value, leaves that in %rax, and changes no other
object. -/
theorem C60_assign (hC : C.Ok) (addr : Nat → Word) (Pg : List Line) (σ σ1 σ2 : Store) (s : St) (h : Started P E O addr Pg σ s)
    (l : LV) (t : CTy) (ht : l.ty P = some (.int t)) (hw : l.Wf) (hn : l.NoConv) (hu : Usable E C.opt l.exprs)
    (i : IE) (u : CTy) (it : i.ty P = some u) (iw : i.Wf) (hin : i.NoConv) (iu : Usable E C.opt i.exprs)
    (hb : t = .bool → ∃ e, i = .expr e)
    (hf : l.Fine P ⟨addr, s.m⟩ E σ) (a : Word) (he : l.eval P ⟨addr, s.m⟩ σ = .ok (a, σ1)) (ha : E.Apart a t.bytes)
    (hif : i.Fine P ⟨addr, s.m⟩ E σ1) (v : Int) (hv : i.eval P ⟨addr, s.m⟩ σ1 = .ok (v, σ2)) (pc c : Nat)
    (hK : (compileSetInt C P E.loc O.at_ E.stk t l i c).1.st ≤ E.K)
    (hc : CodeAt Pg pc (compileSetInt C P E.loc O.at_ E.stk t l i c).1.code) :
    ∃ s', Runs E.sym Pg (pc, s) (pc + (compileSetInt C P E.loc O.at_ E.stk t l i c).1.code.length, s') ∧
      (Machine.mk addr s'.m).int t a = conv t v ∧ InReg t (conv t v) (s'.r .ax) ∧ KeptBut E σ2 a t.bytes s s' := by
  obtain ⟨S, H⟩ := setup C P E O hC h
  have ez : (rowTy (.int t)).size = t.bytes := (bytes_size t).symm
  obtain ⟨s', r, q1, q2⟩ := assign_does S ⟨ht, hw, hn, hu⟩ rfl _ _ _ _ (int_cast_gives S ⟨it, iw, hin, iu⟩ t hb) c H hf he
    (by rw [ez]; exact ha) hif hv hK pc hc
  rw [ez] at q2
  refine ⟨s', r, ?_, (reps_inReg _ _ _).1 q1, q2.rel, q2.bp, q2.mem⟩
  exact wrote_int (M := ⟨addr, s.m⟩) (conv_range t v) q2 q1

/-- The code of `l = p` gives a pointer object the address. -/
theorem C60_assign_pointer (hC : C.Ok) (addr : Nat → Word) (Pg : List Line) (σ σ1 σ2 : Store) (s : St) (h : Started P E O addr Pg σ s)
    (l : LV) (t : OTy) (ht : l.ty P = some (.ptr t)) (hw : l.Wf) (hn : l.NoConv) (hu : Usable E C.opt l.exprs)
    (p : PE) (u : OTy) (pt : p.pointee P = some u) (pw : p.Wf) (pn : p.NoConv) (pu : Usable E C.opt p.exprs)
    (hf : l.Fine P ⟨addr, s.m⟩ E σ) (a : Word) (he : l.eval P ⟨addr, s.m⟩ σ = .ok (a, σ1)) (ha : E.Apart a 8)
    (hpf : p.Fine P ⟨addr, s.m⟩ E σ1) (v : Word) (hv : p.eval P ⟨addr, s.m⟩ σ1 = .ok (v, σ2)) (pc c : Nat)
    (hK : (compileSetPtr C P E.loc O.at_ E.stk t l p c).1.st ≤ E.K)
    (hc : CodeAt Pg pc (compileSetPtr C P E.loc O.at_ E.stk t l p c).1.code) :
    ∃ s', Runs E.sym Pg (pc, s) (pc + (compileSetPtr C P E.loc O.at_ E.stk t l p c).1.code.length, s') ∧
      (Machine.mk addr s'.m).word a 8 = v.toNat ∧ s'.r .ax = v ∧ KeptBut E σ2 a 8 s s' := by
  obtain ⟨S, H⟩ := setup C P E O hC h
  have hp : POk C P E (.cast t p) t := ⟨by show (p.pointee P).map _ = _; rw [pt]; rfl, pw, pn, pu⟩
  obtain ⟨s', r, q1, q2⟩ := assign_does S ⟨ht, hw, hn, hu⟩ rfl _ _ _ _ (ptr_gives S hp) c H hf he ha hpf hv hK pc hc
  have q2 : Wrote E ⟨addr, s.m⟩ σ2 a 8 (s'.r .ax) s' := q2
  refine ⟨s', r, ?_, q1, q2.rel, q2.bp, q2.mem⟩
  have e := congrArg BitVec.toNat (wrote_word (by decide) q2)
  rw [zx8, q1, BitVec.toNat_ofNat, Nat.mod_eq_of_lt (word_lt _ 8 a)] at e
  exact e

/-- The code defines no label twice, and all its labels are new: numbered from the counter it started with
up to the one it ends with. -/
theorem C60_labels (l : LV) (p : PE) (i : IE) (t : CTy) (u : OTy) (c : Nat) (g : G)
    (hg : g = compileAddr C P E.loc O.at_ E.stk l ∨ g = compileLV C P E.loc O.at_ E.stk l ∨ g = compilePE C P E.loc O.at_ E.stk p ∨
      g = compileSetInt C P E.loc O.at_ E.stk t l i ∨ g = compileSetPtr C P E.loc O.at_ E.stk u l p) :
    UniqueLabels (g c).1.code ∧
    ∀ l, Line.lab l ∈ (g c).1.code → ∃ n, c ≤ n ∧ n < (g c).2 ∧
        (l = .short n ∨ l = .fall n ∨ l = .else_ n ∨ l = .end_ n ∨ l = .begin n ∨ l = .rtn n) := by
  have hF : Fresh g := by
    rcases hg with rfl | rfl | rfl | rfl | rfl
    · exact genA_fresh _ _ _ _ _ _ _ _
    · exact genA_fresh _ _ _ _ _ _ _ _
    · exact genA_fresh _ _ _ _ _ _ _ _
    · exact genAssign_fresh _ _ _ _ _ _ _
    · exact genAssign_fresh _ _ _ _ _ _ _
  refine ⟨unique_of_nodup _ (hF c).2.1, fun l hl => ?_⟩
  obtain ⟨n, h1, h2, h3⟩ := (hF c).2.2 l (List.mem_filterMap.2 ⟨_, hl, rfl⟩)
  refine ⟨n, h2, h3, ?_⟩
  cases l <;> simp only [lnum, Option.some.injEq, reduceCtorEq] at h1 <;> subst h1 <;> simp

end

/-! A case meeting the hypotheses: `struct N { int v[4]; struct N *next; } a[3];` in the frame of the
example of C30, with `a[1].next == &a[2]`; the designator `a[z - 99].next->v[2]`, with `z` 100. -/

def acP : ODecls where
  structs _ := ⟨24, [(0, .arr (.int .int) 4), (16, .ptr (.struct 0))]⟩
  objs _ := .arr (.struct 0) 3
  ints := exΓ
def acO : Objects := ⟨fun _ o => .frame (-128 + o)⟩
def acAddr : Nat → Word := fun _ => 0x7ffeff80
def acMem : Word → BitVec 8 := wr (wr exState.m 0x7ffeffa8 8 0x7ffeffb0) 0x7ffeffb8 4 (BitVec.ofInt 64 (-7))
def acState : St := ⟨exState.r, acMem, none⟩
def acM : Machine := ⟨acAddr, acMem⟩
def acNode : LV := .deref (.add (.decay (.var 0)) (.expr (.bin (.ar .sub) (.var 2) (.num .int 99))))
def acLV : LV := .deref (.add (.decay (.member (.deref (.value (.member acNode 1))) 0)) (.expr (.num .int 2)))

theorem acO_ok : acO.Ok exEnv acAddr := by
  intro x o
  refine .inl ⟨_, rfl, ?_⟩
  rw [BitVec.ofInt_add, ← BitVec.add_assoc]
  rfl

theorem apart_of (a : Word) (n : Nat) (h : ∀ k < n, (∀ x < 3, ¬ InBlk (exEnv.addr x) (exEnv.size x) (a + BitVec.ofNat 64 k)) ∧
    ∀ i < 2, ¬ InBlk (exEnv.slot i) 8 (a + BitVec.ofNat 64 k)) : exEnv.Apart a n := by
  intro b hb
  have e : a + BitVec.ofNat 64 (b - a).toNat = b := by
    rw [BitVec.ofNat_toNat, BitVec.setWidth_eq, BitVec.add_comm, BitVec.sub_add_cancel]
  have := h _ hb
  rw [e] at this
  exact ⟨fun x hx => this.1 x hx, fun i hi => this.2 i hi⟩

instance (a b : Word) : Decidable (Short a b) := inferInstanceAs (Decidable (_ ∧ _))
instance (a : Word) (n : Nat) (b : Word) : Decidable (InBlk a n b) := inferInstanceAs (Decidable (_ < _))
theorem acRel : Rel exEnv exStore acMem := by
  have lt3 : ∀ x, x < 3 → x = 0 ∨ x = 1 ∨ x = 2 := by omega
  intro x hx
  rcases lt3 x hx with rfl | rfl | rfl <;> decide

theorem acStarted (c : Nat) (g : G) (hu : UniqueLabels (g c).1.code) : Started acP exEnv acO acAddr (g c).1.code exStore acState :=
  ⟨exEnv_ok, hu, rfl, acO_ok, exStoreOk, rfl, acRel⟩

theorem acNode_eval : acNode.eval acP acM exStore = .ok (0x7ffeff98, exStore) := rfl
theorem acNext_word : acM.word 0x7ffeffa8 8 = 0x7ffeffb0 := by decide
theorem acNext_eval : PE.eval acP acM (.value (.member acNode 1)) exStore = .ok (0x7ffeffb0, exStore) := by
  show Res.ok (BitVec.ofNat 64 (acM.word 0x7ffeffa8 8), exStore) = _
  rw [acNext_word]; rfl

theorem acInner_eval : LV.eval acP acM (.member (.deref (.value (.member acNode 1))) 0) exStore = .ok (0x7ffeffb0, exStore) := by
  show (do let (a, σ) ← PE.eval acP acM (.value (.member acNode 1)) exStore; Res.ok (a + BitVec.ofNat 64 0, σ)) = _
  rw [acNext_eval]; rfl
theorem acLV_eval : acLV.eval acP acM exStore = .ok (0x7ffeffb8, exStore) := by
  show (do let (a, σ) ← LV.eval acP acM (.member (.deref (.value (.member acNode 1))) 0) exStore
           let (v, σ) ← ceval exΓ (.num .int 2) σ
           Res.ok (a + stride acP (some (.int .int)) v, σ)) = _
  rw [acInner_eval]; rfl

theorem stays_none (P : ODecls) (M : Machine) (σ : Store) (l : LV) (h : l.root = none) : LV.Stays P M σ l := by
  intro x a σ' h'; rw [h] at h'; cases h'
theorem stays_some (P : ODecls) (M : Machine) (σ σ1 : Store) (l : LV) (x : Nat) (a : Word) (h : l.root = some x) (he : l.eval P M σ = .ok (a, σ1))
    (hs : Short a (M.addr x)) : LV.Stays P M σ l := by
  intro x' a' σ' h' he'
  rw [h] at h'; injection h' with h'; subst h'
  rw [he] at he'; injection he' with he'; injection he' with he'; subst he'
  exact hs
theorem close_of {α : Type} {r : Res (Word × α)} {a b : Word} {σ : α} (h : r = .ok (b, σ)) (hs : Short a b) :
    ∀ (b : Word) (σ' : α), r = .ok (b, σ') → Short a b := by
  intro b' σ' h'
  rw [h] at h'; injection h' with h'; injection h' with h'; subst h'
  exact hs

theorem acNode_fine : LV.Fine acP acM exEnv exStore (.member acNode 1) := by
  have near : LV.Near acP acM exStore acNode := ⟨stays_some _ _ _ _ _ 0 _ rfl acNode_eval (by decide), trivial⟩
  exact ⟨⟨stays_some _ _ _ exStore _ 0 0x7ffeffa8 rfl rfl (by decide), near⟩, near, trivial, fun _ _ _ => trivial⟩
theorem acNode_access : LV.Access acP acM exEnv exStore (.member acNode 1) 8 := by
  intro a σ' h
  have h : Res.ok ((0x7ffeffa8 : Word), exStore) = .ok (a, σ') := h
  injection h with h; injection h with h _; subst h
  exact ⟨apart_of _ _ (by decide), close_of acNode_eval (by decide),
    close_of (show PE.eval acP acM (.decay (.var 0)) exStore = .ok (0x7ffeff80, exStore) from rfl) (by decide), trivial⟩
theorem acLV_fine : acLV.Fine acP acM exEnv exStore := by
  have near : LV.Near acP acM exStore (.member acNode 1) := acNode_fine.1
  have n1 : LV.Near acP acM exStore (.deref (.value (.member acNode 1))) := ⟨stays_none _ _ _ _ rfl, near⟩
  have n2 : LV.Near acP acM exStore (.member (.deref (.value (.member acNode 1))) 0) := ⟨stays_none _ _ _ _ rfl, n1⟩
  exact ⟨⟨stays_none _ _ _ _ rfl, n2⟩, ⟨n2, n1, acNode_fine, acNode_access⟩, fun _ _ _ => trivial⟩
theorem acLV_access : acLV.Access acP acM exEnv exStore 4 := by
  intro a σ' h
  rw [acLV_eval] at h
  injection h with h; injection h with h _; subst h
  exact ⟨apart_of _ _ (by decide), close_of acInner_eval (by decide), close_of acNext_eval (by decide), trivial⟩
theorem acLV_int : acM.int .int 0x7ffeffb8 = -7 := by decide
theorem acLV_valid : acLV.Valid acP acM exStore .int := by
  intro a σ' h
  rw [acLV_eval] at h
  injection h with h; injection h with h _; subst h
  rw [acLV_int]; decide
theorem acLV_wf : acLV.Wf := ⟨⟨trivial, show Expr.Wf _ by decide⟩, show Expr.Wf _ by decide⟩
theorem acLV_usable (b : Bool) : Usable exEnv b acLV.exprs := by
  intro e he
  simp [acLV, acNode, LV.exprs, PE.exprs, IE.exprs] at he
  rcases he with rfl | rfl
  · exact ⟨by intro x hx; simp [Expr.vars] at hx; show x < 3; omega, fun _ => ⟨trivial, trivial, by simp [Expr.vars, Expr.assigned]⟩⟩
  · exact ⟨by intro x hx; simp [Expr.vars] at hx, fun _ => trivial⟩

/-- The code for it leaves -7 in %rax. -/
example : ∃ s', Runs exEnv.sym (compileLV adC acP exEnv.loc acO.at_ 16 acLV 0).1.code (0, acState)
      (0 + (compileLV adC acP exEnv.loc acO.at_ 16 acLV 0).1.code.length, s') ∧
      InReg .int (acM.int .int 0x7ffeffb8) (s'.r .ax) ∧ Kept exEnv exStore acState s' :=
  C60_read adC acP exEnv acO adC_ok acAddr _ exStore exStore acState (acStarted 0 _ (C60_labels adC acP exEnv acO acLV (.addr acLV) (.obj acLV) .int (.int .int) 0 _ (.inr (.inl rfl))).1)
    acLV .int rfl acLV_wf ⟨⟨trivial, trivial⟩, trivial⟩ (acLV_usable _) acLV_fine acLV_access acLV_valid 0x7ffeffb8 acLV_eval 0 0 (by decide)
    (fun i _ => by rw [Nat.zero_add])

theorem acRhs : ceval exΓ (.bin (.ar .mul) (.var 1) (.num .int 3)) exStore = .ok (600, exStore) := by rfl

/-- That of `a[z - 99].next->v[2] = y * 3`, with `y` 200, stores 600 there. -/
example : ∃ s', Runs exEnv.sym (compileSetInt adC acP exEnv.loc acO.at_ 16 .int acLV (.expr (.bin (.ar .mul) (.var 1) (.num .int 3))) 0).1.code (0, acState)
      (0 + (compileSetInt adC acP exEnv.loc acO.at_ 16 .int acLV (.expr (.bin (.ar .mul) (.var 1) (.num .int 3))) 0).1.code.length, s') ∧
      (Machine.mk acAddr s'.m).int .int 0x7ffeffb8 = conv .int 600 ∧ InReg .int (conv .int 600) (s'.r .ax) ∧ KeptBut exEnv exStore 0x7ffeffb8 4 acState s' :=
  C60_assign adC acP exEnv acO adC_ok acAddr _ exStore exStore exStore acState (acStarted 0 _ (C60_labels adC acP exEnv acO acLV (.addr acLV) _ .int (.int .int) 0 _ (.inr (.inr (.inr (.inl rfl))))).1)
    acLV .int rfl acLV_wf ⟨⟨trivial, trivial⟩, trivial⟩ (acLV_usable _) (.expr (.bin (.ar .mul) (.var 1) (.num .int 3))) .int rfl (show Expr.Wf _ by decide) trivial
    (fun e he => by
      simp [IE.exprs] at he
      subst he
      exact ⟨by intro x hx; simp [Expr.vars] at hx; show x < 3; omega, fun _ => ⟨trivial, trivial, by simp [Expr.vars, Expr.assigned]⟩⟩)
    (fun h => by cases h) acLV_fine 0x7ffeffb8 acLV_eval (apart_of _ _ (by decide)) trivial 600 acRhs 0 0 (by decide) (fun i _ => by rw [Nat.zero_add])

/-! ### Where the compiler departs from C -/

/-- `int *p`, `int i`, `unsigned u`. -/
def acQ (t : CTy) : ODecls where
  structs _ := ⟨0, []⟩
  objs _ := .ptr (.int .int)
  ints _ := t
def acFar (k : Int) : LV := .deref (.add (.value (.var 0)) (.expr (.num .int k)))
theorem acFar_eval (k : Int) (M : Machine) (σ : Store) : (acFar k).eval (acQ .int) M σ =
    .ok (BitVec.ofNat 64 (M.word (M.addr 0) 8) + stride (acQ .int) (some (.int .int)) k, σ) := rfl
/-- The offset of an access is kept in an `int`: `p[1073741824]`, 4 GiB away (excluded by `Close`), is
compiled as `p[0]`. -/
theorem C60_far (loc : Nat → MemOp) (obj : Nat → Int → MemOp) (stk c : Nat) :
    compileLV adC (acQ .int) loc obj stk (acFar 1073741824) c = compileLV adC (acQ .int) loc obj stk (acFar 0) c ∧
    ∀ (M : Machine) (σ : Store) (a σ'), (acFar 0).eval (acQ .int) M σ = .ok (a, σ') →
      (acFar 1073741824).eval (acQ .int) M σ = .ok (a + 4294967296, σ') := by
  refine ⟨rfl, fun M σ a σ' h => ?_⟩
  rw [acFar_eval] at h ⊢
  injection h with h; injection h with h1 h2
  rw [show stride (acQ .int) (some (.int .int)) 0 = 0#64 by decide, BitVec.add_zero] at h1
  rw [show stride (acQ .int) (some (.int .int)) 1073741824 = 4294967296 by decide, h1, h2]

/-- `*(char *)i`. -/
def acCast : LV := .deref (.ofInt (.int .char) (.expr (.var 0)))
/-- The conversion of an integer to a pointer under `*` (excluded by `NoConv`) is dropped: the code of
`*(char *)i` is the same for `int i` as for `unsigned i`, whose values -1 and 4294967295 are different
addresses. -/
theorem C60_cast_dropped (loc : Nat → MemOp) (obj : Nat → Int → MemOp) (stk c : Nat) :
    compileLV adC (acQ .int) loc obj stk acCast c = compileLV adC (acQ .uint) loc obj stk acCast c ∧
    (∀ M : Machine, acCast.eval (acQ .int) M (fun _ => -1) = .ok (18446744073709551615, fun _ => -1)) ∧
    ∀ M : Machine, acCast.eval (acQ .uint) M (fun _ => 4294967295) = .ok (4294967295, fun _ => 4294967295) :=
  ⟨rfl, fun _ => rfl, fun _ => rfl⟩

end Slimcc.Props
