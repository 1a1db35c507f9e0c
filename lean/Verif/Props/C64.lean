import Verif.Lemmas.CallCode
import Verif.Lemmas.Labels
import Verif.Props.C30
/-!
C64: the arguments of a call.

`funcall` (Model/Call) is the code of a call; `before` stands up to the call instruction, `after`
follows it. `Handed` (Spec/Call) says what the called function finds: the arguments' C values in the
registers and stack slots of the ABI. `Evaluated` says what the values of the arguments are;
`C64_order` that evaluation from left to right gives it.
-/
set_option autoImplicit false
namespace Slimcc.Props
open Slimcc Slimcc.Spec Slimcc.Spec.CTy Slimcc.Ty Slimcc.X86 Slimcc.Gen

section
variable (hs : HostShift) (opt : Bool) (E : Env)

/-- 1 if the address of the result is the first argument. -/
def hidden (S : Site) : Nat := if S.ret.isSome then 1 else 0

/-- The stack pointer at the call instruction, `sp` is the one before the call. -/
def spAt (S : Site) (sp : Word) : Word := sp - BitVec.ofNat 64 (argBytes (hidden S) S.args.length)

/-- The requirements on a call: variables and temporaries do not overlap, the arguments are proper
expressions that are independent of each other, and there is memory for the arguments. -/
structure Callable (P : List Line) (S : Site) (σ : Store) (temp : Nat → Int) (sp : Word) : Prop where
  ok : E.Ok
  lab : UniqueLabels P
  sok : StoreOk E.Γ σ
  ind : Independent S.args
  wf : ∀ a ∈ S.args, a.e.Wf
  vars : ∀ a ∈ S.args, ∀ x ∈ a.e.vars, E.dom x
  seq : opt = true → ∀ a ∈ S.args, a.e.Sequenced
  room : Room E S.args (hidden S) (Spilled hs opt E S.args (hidden S)) temp (spAt S sp)

theorem argReg_clobber {k j n : Nat} (hj : argReg k = .tmp j) (hk : k < n) : j < fnClobber (min n 6) := by
  have h6 : k < 6 := by
    match k, hj with
    | 0, _ | 1, _ | 2, _ | 3, _ | 4, _ | 5, _ => decide
    | k + 6, hj => cases hj
  have h0 : ∀ m : Nat, m < 7 → ∀ k, k < 6 → k < m → ∀ j, j < 6 → argReg k = .tmp j → j < fnClobber m := by decide
  refine h0 (min n 6) (by omega) k h6 (by omega) j ?_ hj
  match k, h6, hj with
  | 0, _, hj | 1, _, hj | 4, _, hj | 5, _, hj => injection hj with hj; omega
  | 2, _, hj | 3, _, hj => cases hj

theorem argReg_lt {k j : Nat} (hj : argReg k = .tmp j) : j < 4 := by
  match k, hj with
  | 0, hj | 1, hj | 4, hj | 5, hj => injection hj with hj; omega
  | 2, hj | 3, hj => cases hj
  | k + 6, hj => cases hj

theorem hidden_b2n (S : Site) : hidden S = CC.b2n S.ret.isSome := (b2n_ite _).symm

theorem Callable.calls {P : List Line} {S : Site} {σ σ' : Store} {vs : List Int} {temp : Nat → Int} {sp : Word} {K st : Nat}
    (C : Callable hs opt E P S σ temp sp) (he : Evaluated E.Γ S.args σ σ' vs) (hst : st ≤ E.K)
    (hr : ∀ k, k < hidden S + S.args.length → ∀ j, argReg k = .tmp j → j < K) :
    Calls E P opt hs S.args (CC.b2n S.ret.isSome) σ vs temp (spAt S sp) K st := by
  rw [← hidden_b2n]
  exact ⟨C.ok, C.lab, C.sok, C.ind, C.wf, C.vars, C.seq, he.len, fun i a v ha hv => by
    obtain ⟨w, σ1, h1, h2, _⟩ := he.each i a v ha hv
    exact ⟨w, σ1, h1, h2⟩, C.room, hst, hr⟩

/-- The call of a named function: at the call instruction the arguments are in their places, with the
C values and the effects on variables; only variables, temporaries and the memory for the arguments
are changed. -/
theorem C64_direct (P : List Line) (S : Site) (σ σ' : Store) (vs : List Int) (temp : Nat → Int) (rt : Option ITy) (s : St) (pc lab : Nat)
    (hfn : S.fn = none) (hC : Callable hs opt E P S σ temp (s.r .sp)) (he : Evaluated E.Γ S.args σ σ' vs)
    (hbp : s.r .bp = E.bp) (hm : Rel E σ s.m)
    (hK : (funcall hs opt E.Γ E.loc E.stk S temp rt lab).1.before.st ≤ E.K)
    (hc : CodeAt P pc (funcall hs opt E.Γ E.loc E.stk S temp rt lab).1.before.code) :
    (funcall hs opt E.Γ E.loc E.stk S temp rt lab).1.target = none ∧
    ∃ s', Runs E.sym P (pc, s) (pc + (funcall hs opt E.Γ E.loc E.stk S temp rt lab).1.before.code.length, s') ∧
      Handed E S.args S.ret S.variadic σ' vs (spAt S (s.r .sp)) s' ∧
      ∀ a, ¬ CallMem E S.args (hidden S) (Spilled hs opt E S.args (hidden S)) temp (spAt S (s.r .sp)) a → E.Outside E.K a → s'.m a = s.m a := by
  unfold funcall at hK hc ⊢
  rw [hfn] at hK hc ⊢
  dsimp only at hK hc ⊢
  refine ⟨rfl, ?_⟩
  have hreg : ∀ k, k < hidden S + S.args.length → ∀ j, argReg k = .tmp j → j < max (argCode hs opt E.Γ E.loc E.stk S temp lab).1.gp 6 := by
    intro k _ j hj
    have := argReg_lt hj
    omega
  have C := hC.calls hs opt E he (Nat.le_refl _) hreg
  have hsp : spAt S (s.r .sp) = s.r .sp - BitVec.ofNat 64 (argBytes (CC.b2n S.ret.isSome) S.args.length) := by unfold spAt; rw [hidden_b2n]
  rw [hsp] at C
  obtain ⟨s', r, f, q⟩ := argCode_ok lab C he hbp hm (Nat.le_max_left _ _) hK pc hc
  refine ⟨s', r, by rw [hsp]; exact q, fun a ha ho => f.mem a ?_ ho.1 ho.2⟩
  rw [hsp, hidden_b2n] at ha
  exact ha

/-- The call through an expression for the function: that is evaluated first, and its value is in the
register the call instruction names. -/
theorem C64_pointer (P : List Line) (S : Site) (f : Expr) (fv : Int) (σ0 σ σ' : Store) (vs : List Int) (temp : Nat → Int) (rt : Option ITy) (s : St) (pc lab : Nat)
    (hfn : S.fn = some f) (hf8 : (f.ty E.Γ).bytes = 8) (hfw : f.Wf) (hfx : ∀ x ∈ f.vars, E.dom x) (hfq : opt = true → f.Sequenced)
    (hσ0 : StoreOk E.Γ σ0) (hfv : ceval E.Γ f σ0 = .ok (fv, σ))
    (hC : Callable hs opt E P S σ temp (s.r .sp)) (he : Evaluated E.Γ S.args σ σ' vs)
    (hbp : s.r .bp = E.bp) (hm : Rel E σ0 s.m)
    (hK : (funcall hs opt E.Γ E.loc E.stk S temp rt lab).1.before.st ≤ E.K)
    (hc : CodeAt P pc (funcall hs opt E.Γ E.loc E.stk S temp rt lab).1.before.code) :
    ∃ s' r, Runs E.sym P (pc, s) (pc + (funcall hs opt E.Γ E.loc E.stk S temp rt lab).1.before.code.length, s') ∧
      (funcall hs opt E.Γ E.loc E.stk S temp rt lab).1.target = some r ∧ s'.r r = BitVec.ofInt 64 fv ∧
      Handed E S.args S.ret S.variadic σ' vs (spAt S (s.r .sp)) s' ∧
      ∀ a, ¬ CallMem E S.args (hidden S) (Spilled hs opt E S.args (hidden S)) temp (spAt S (s.r .sp)) a → E.Outside E.K a → s'.m a = s.m a := by
  unfold funcall at hK hc ⊢
  rw [hfn] at hK hc ⊢
  dsimp only at hK hc ⊢
  rw [conv_args, List.length_map] at hK hc ⊢
  dsimp only at hK hc ⊢
  rw [codeAt_append] at hc
  obtain ⟨c1, c2⟩ := hc
  have hK1 := Nat.le_trans (Nat.le_max_left _ _) hK
  have hK2 := Nat.le_trans (Nat.le_max_right _ _) hK
  obtain ⟨s1, r1, f1, q1, q2⟩ := compileExpr_ok hC.ok hC.lab hs f σ0 σ s fv lab ⟨hfw, hfx, hfq, hσ0, hbp, hm⟩ hfv hK1 pc c1
  have hax : s1.r .ax = BitVec.ofInt 64 fv := by
    have := q2.1
    unfold rop at this
    rw [← bytes_size, hf8] at this
    simpa [Low] using this
  have hsp : spAt S (s.r .sp) = s1.r .sp - BitVec.ofNat 64 (argBytes (CC.b2n S.ret.isSome) S.args.length) := by unfold spAt; rw [hidden_b2n, f1.sp]
  generalize hl : (compileExpr hs opt E.Γ E.loc E.stk f lab).2 = l1 at hK2 c2 ⊢
  generalize hk : fnClobber (CC.Cnt.gpCount { gp := CC.b2n S.ret.isSome + S.args.length, fp := 0, stack := 8 * (CC.b2n S.ret.isSome + S.args.length - 6), maxAlign := 16 }) = k at hK2 c2 ⊢
  have hreg : ∀ k', k' < hidden S + S.args.length → ∀ j, argReg k' = .tmp j → j < ((argCode hs opt E.Γ E.loc E.stk S temp ;; clobberGp k) l1).1.gp := by
    intro k' hk' j hj
    have hj' : j < k := by
      rw [← hk]
      have e : CC.Cnt.gpCount { gp := CC.b2n S.ret.isSome + S.args.length, fp := 0, stack := 8 * (CC.b2n S.ret.isSome + S.args.length - 6), maxAlign := 16 } = min (hidden S + S.args.length) 6 := by
        rw [hidden_b2n]; rfl
      rw [e]
      exact argReg_clobber hj hk'
    exact Nat.lt_of_lt_of_le hj' (Nat.le_max_right _ _)
  have hb := tmp_st_le hK2
  obtain ⟨s', s2, r2, q3, m2, o2, t2, mm⟩ := fn_tmp (P := P) (W := CallMem E S.args (CC.b2n S.ret.isSome) (Spilled hs opt E S.args (CC.b2n S.ret.isSome)) temp
      (s1.r .sp - BitVec.ofNat 64 (argBytes (CC.b2n S.ret.isSome) S.args.length))) hC.ok
    (argCode hs opt E.Γ E.loc E.stk S temp ;; clobberGp k) l1 s1
    (Handed E S.args S.ret S.variadic σ' vs (s1.r .sp - BitVec.ofNat 64 (argBytes (CC.b2n S.ret.isSome) S.args.length)))
    (f1.bp.trans hbp) hK2
    (fun b hb k hk hin => by
      have hro := hC.room
      rw [hsp, hidden_b2n] at hro
      rcases hb with hb | ⟨i, hi, hb⟩
      · exact hro.stackSlots k hk b ⟨hb, hin⟩
      · exact hro.tempSlots i k hi hk b ⟨hb, hin⟩)
    (fun s2 b2 p2 rel2 => by
      have C := hC.calls hs opt E he hb hreg
      rw [hsp, ← p2] at C
      have := argCode_ok l1 C he b2 (rel2 σ q1) (Nat.le_max_left _ _) (Nat.le_max_left _ _)
      rw [p2] at this
      intro pc hpc
      have hcode : ((argCode hs opt E.Γ E.loc E.stk S temp ;; clobberGp k) l1).1.code = (argCode hs opt E.Γ E.loc E.stk S temp l1).1.code := List.append_nil _
      rw [hcode] at hpc ⊢
      exact this pc hpc)
    _ c2
  refine ⟨s', _, ?_, rfl, t2.trans hax, by rw [hsp]; exact handed_r10 q3 m2 o2, fun a ha ho => ?_⟩
  · rw [List.length_append, ← Nat.add_assoc]
    exact r1.trans r2
  · rw [hsp, hidden_b2n] at ha
    rw [mm a ha ⟨ho.1, fun i hi => ho.2 i (by omega)⟩]
    exact f1.mem a ho.1 fun i hi => ho.2 i (by omega)

/-- The arguments on the stack do not change the alignment of the stack pointer. -/
theorem C64_aligned (S : Site) (sp : Word) : (spAt S sp).toNat % 16 = sp.toNat % 16 := by
  unfold spAt argBytes
  generalize (hidden S + S.args.length - 6 + 1) / 2 = n
  rw [BitVec.toNat_sub, BitVec.toNat_ofNat]
  have := sp.isLt
  omega

/-- After the call of a function that has kept %rbp and %rsp the stack pointer is as before the call,
memory and %rbp are as the function left them, and the low bits of %rax it returned have become the
value of the result's type. -/
theorem C64_after (S : Site) (temp : Nat → Int) (t : CTy) (v : Int) (sp : Word) (s : St) (lab : Nat)
    (hsp : s.r .sp = spAt S sp) (hv : InRange t v) (hax : (s.r .ax).setWidth (8 * t.bytes) = BitVec.ofInt _ v) :
    ∃ s', execs E.sym (funcall hs opt E.Γ E.loc E.stk S temp (some (ity t)) lab).1.after s = some s' ∧
      s'.r .sp = sp ∧ s'.r .bp = s.r .bp ∧ s'.m = s.m ∧ InReg t v (s'.r .ax) := by
  have hafter : (funcall hs opt E.Γ E.loc E.stk S temp (some (ity t)) lab).1.after =
      (if 8 * (CC.b2n S.ret.isSome + S.args.length - 6) ≠ 0 then [.alu .add 8 (.imm (BitVec.ofNat 64 (CC.alignTo (8 * (CC.b2n S.ret.isSome + S.args.length - 6)) 16))) (.reg .sp)] else []) ++
      (if (ity t).size < 4 then [.movx (!(ity t).uns) (ity t).size 4 (.reg .ax) .ax] else []) := by
    unfold funcall
    dsimp only
    rw [conv_args, List.length_map]
    cases S.fn <;> rfl
  rw [hafter]
  obtain ⟨s1, x1, x2, x3, x4⟩ := move_sp (E := E) .add (CC.b2n S.ret.isSome) S.args.length s (BitVec.add_zero _)
  obtain ⟨s2, y1, y2, y3, y4⟩ := widen_calc (E := E) t v s1 hv (by rw [x3 _ (by simp)]; exact hax)
  refine ⟨s2, by rw [execs_append, x1]; exact y1, ?_, ?_, y2.trans x4, y4⟩
  · rw [y3 _ (by simp [Scratch]), x2, hsp]
    unfold spAt
    rw [hidden_b2n]
    exact BitVec.sub_add_cancel _ _
  · rw [y3 _ (by simp [Scratch]), x3 _ (by simp)]

/-- The same for a call whose result is not used. -/
theorem C64_after_void (S : Site) (temp : Nat → Int) (sp : Word) (s : St) (lab : Nat) (hsp : s.r .sp = spAt S sp) :
    ∃ s', execs E.sym (funcall hs opt E.Γ E.loc E.stk S temp none lab).1.after s = some s' ∧
      s'.r .sp = sp ∧ (∀ r, r ≠ .sp → s'.r r = s.r r) ∧ s'.m = s.m := by
  have hafter : (funcall hs opt E.Γ E.loc E.stk S temp none lab).1.after =
      (if 8 * (CC.b2n S.ret.isSome + S.args.length - 6) ≠ 0 then [.alu .add 8 (.imm (BitVec.ofNat 64 (CC.alignTo (8 * (CC.b2n S.ret.isSome + S.args.length - 6)) 16))) (.reg .sp)] else []) ++ [] := by
    unfold funcall
    dsimp only
    rw [conv_args, List.length_map]
    cases S.fn <;> rfl
  rw [hafter, List.append_nil]
  obtain ⟨s1, x1, x2, x3, x4⟩ := move_sp (E := E) .add (CC.b2n S.ret.isSome) S.args.length s (BitVec.add_zero _)
  refine ⟨s1, x1, ?_, x3, x4⟩
  rw [x2, hsp]
  unfold spAt
  rw [hidden_b2n]
  exact BitVec.sub_add_cancel _ _

/-- For independent arguments, evaluation from left to right gives the values and the effects of
`Evaluated`. -/
theorem C64_order (as : List Actual) (σ σ' : Store) (vs : List Int) (hi : Independent as) (hw : ∀ a ∈ as, a.e.Wf) (hσ : StoreOk E.Γ σ)
    (h : cevals E.Γ as σ = .ok (vs, σ')) : Evaluated E.Γ as σ σ' vs :=
  cevals_evaluated (fun _ _ x _ => x) as σ σ' vs hi hw hσ h

end

/-! A case meeting the hypotheses, in the frame of C30 (`long x = -5; unsigned char y = 200; int z = 100`):
`f(y * 8 + 1, 300, y, z = 7, x, ~x, x * 3, 9)` for a function returning a large structure in a buffer
at offset -160 and declared with parameters `(long, unsigned char, ...)` for the first two, `int` and
`long` for the next but one, and `short` for the last but one. -/

def exArgs : List Actual :=
  [⟨some .long, .bin (.ar .add) (.bin (.ar .mul) (.var 1) (.num .int 8)) (.num .int 1)⟩, ⟨some .uchar, .num .int 300⟩,
   ⟨none, .var 1⟩, ⟨some .int, .assign 2 (.num .int 7)⟩, ⟨some .long, .var 0⟩, ⟨none, .un .bnot (.var 0)⟩,
   ⟨some .short, .bin (.ar .mul) (.var 0) (.num .int 3)⟩, ⟨none, .num .int 9⟩]

def exSite (fn : Option Expr) : Site := ⟨exArgs, fn, some (-160), true⟩
def exTemp : Nat → Int := fun i => -40 - 8 * (i : Int)
def exCall : St := { exState with r := fun r => if r = .bp then 0x7fff0000 else if r = .sp then 0x7fff0000 - 256 else 0x1234567890 }
def exVals : List Int := [1601, 44, 200, 7, -5, 4, -15, 9]

theorem exArgs_size (i : Nat) : argSize exΓ exArgs i ≤ 8 := by
  unfold argSize
  split
  · exact bytes_le _
  · omega

theorem exCallable (P : List Line) (fn : Option Expr) (hP : UniqueLabels P) : Callable exShift true exEnv P (exSite fn) exStore exTemp (exCall.r .sp) := by
  have hsp : spAt (exSite fn) (exCall.r .sp) = exEnv.bp + BitVec.ofInt 64 (-288) := by
    have e1 : exCall.r .sp = (0x7fff0000 - 256 : Word) := by decide
    have e2 : argBytes (hidden (exSite fn)) (exSite fn).args.length = 32 := by simp [hidden, exSite, exArgs, argBytes]
    have e3 : exEnv.bp = (0x7fff0000 : Word) := by decide
    unfold spAt
    rw [e1, e2, e3]
    decide
  have e62 : (2 : Int) ^ 62 = 4611686018427387904 := by decide
  have lt3 : ∀ x, x < 3 → x = 0 ∨ x = 1 ∨ x = 2 := by omega
  have ad : ∀ x, exEnv.dom x → ∃ o n, exEnv.addr x = exEnv.bp + BitVec.ofInt 64 o ∧ exEnv.size x = n ∧ -16 ≤ o ∧ o + (n : Int) ≤ 0 := by
    intro x hx
    rcases lt3 x hx with rfl | rfl | rfl
    · exact ⟨-8, 8, rfl, rfl, by decide, by decide⟩
    · exact ⟨-9, 1, rfl, rfl, by decide, by decide⟩
    · exact ⟨-16, 4, rfl, rfl, by decide, by decide⟩
  have sl : ∀ k, k < exEnv.K → ∃ o, exEnv.slot k = exEnv.bp + BitVec.ofInt 64 o ∧ -32 ≤ o ∧ o ≤ -24 := by
    intro k hk
    have hk : k < 2 := hk
    have : k = 0 ∨ k = 1 := by omega
    rcases this with rfl | rfl
    · exact ⟨-24, rfl, by decide, by decide⟩
    · exact ⟨-32, rfl, by decide, by decide⟩
  have ix : ∀ i, Spilled exShift true exEnv exArgs 1 i → i < 5 := fun i hi => by have := hi.1; omega
  refine ⟨exEnv_ok, hP, exStoreOk, ?_, ?_, ?_, fun _ => ?_, ?_⟩
  · intro i j a b ha hb hij x hx
    have hi := (List.getElem?_eq_some_iff.1 ha).1
    have hj := (List.getElem?_eq_some_iff.1 hb).1
    have hx' : i = 3 ∧ x = 2 := by
      have h8 : i < 8 := hi
      match i, h8, ha with
      | 0, _, ha | 1, _, ha | 2, _, ha | 4, _, ha | 5, _, ha | 6, _, ha | 7, _, ha => injection ha with ha; subst ha; simp [Expr.assigned] at hx
      | 3, _, ha => injection ha with ha; subst ha; simpa [Expr.assigned] using hx
    obtain ⟨rfl, rfl⟩ := hx'
    have h8 : j < 8 := hj
    match j, h8, hb with
    | 0, _, hb | 1, _, hb | 2, _, hb | 4, _, hb | 5, _, hb | 6, _, hb | 7, _, hb => injection hb with hb; subst hb; simp [Expr.vars]
    | 3, _, _ => exact absurd rfl hij
  · simp only [exSite, exArgs, List.mem_cons, List.not_mem_nil, or_false, forall_eq_or_imp, forall_eq, Expr.Wf, true_and, and_true]
    decide
  · intro a ha x hx
    show x < 3
    simp only [exSite, exArgs, List.mem_cons, List.not_mem_nil, or_false] at ha
    rcases ha with rfl | rfl | rfl | rfl | rfl | rfl | rfl | rfl <;> simp [Expr.vars] at hx <;> omega
  · simp [exSite, exArgs, Expr.Sequenced, Expr.vars, Expr.assigned]
  · rw [hsp]
    show Room exEnv exArgs 1 (Spilled exShift true exEnv exArgs 1) exTemp _
    have hb : argBytes 1 exArgs.length = 32 := rfl
    refine ⟨by rw [hb]; decide, fun x hx => ?_, fun k hk => ?_, fun i x hi hx => ?_, fun i k hi hk => ?_, fun i hi => ?_, fun i j hi hj hij => ?_⟩
    · obtain ⟨o, n, h1, h2, h3, h4⟩ := ad x hx
      rw [h1, h2, hb]
      exact disj_frame _ _ _ _ _ (by omega) (by rw [e62]; omega) (by rw [e62]; omega)
    · obtain ⟨o, h1, h3, h4⟩ := sl k hk
      rw [h1, hb]
      exact disj_frame _ _ _ _ _ (by omega) (by rw [e62]; omega) (by rw [e62]; omega)
    · obtain ⟨o, n, h1, h2, h3, h4⟩ := ad x hx
      have h5 : argSize exEnv.Γ exArgs i ≤ 8 := exArgs_size i
      have h6 := ix i hi
      rw [h1, h2]
      unfold exTemp
      exact disj_frame _ _ _ _ _ (by omega) (by rw [e62]; omega) (by rw [e62]; omega)
    · obtain ⟨o, h1, h3, h4⟩ := sl k hk
      have h5 : argSize exEnv.Γ exArgs i ≤ 8 := exArgs_size i
      have h6 := ix i hi
      rw [h1]
      unfold exTemp
      exact disj_frame _ _ _ _ _ (by omega) (by rw [e62]; omega) (by rw [e62]; omega)
    · have h5 : argSize exEnv.Γ exArgs i ≤ 8 := exArgs_size i
      have h6 := ix i hi
      rw [hb]
      unfold exTemp
      exact disj_frame _ _ _ _ _ (by omega) (by rw [e62]; omega) (by rw [e62]; omega)
    · have h5 : argSize exEnv.Γ exArgs i ≤ 8 := exArgs_size i
      have h6 := ix i hi
      have h7 : argSize exEnv.Γ exArgs j ≤ 8 := exArgs_size j
      have h8 := ix j hj
      unfold exTemp
      exact disj_frame _ _ _ _ _ (by omega) (by rw [e62]; omega) (by rw [e62]; omega)

theorem exCevals : cevals exΓ exArgs exStore = .ok (exVals, exStore.set 2 7) := by
  simp only [exArgs, cevals, Actual.ty]
  rfl

theorem exEvaluated : Evaluated exEnv.Γ exArgs exStore (exStore.set 2 7) exVals :=
  C64_order exEnv exArgs exStore (exStore.set 2 7) exVals (exCallable [] none (by intro i j l h; simp at h)).ind (exCallable [] none (by intro i j l h; simp at h)).wf exStoreOk exCevals

def exBefore (fn : Option Expr) : Out := (funcall exShift true exΓ exEnv.loc 16 (exSite fn) exTemp none 0).1.before

/-- The code of the call runs to a state with the arguments in their places: for instance `x * 3` is
the second argument on the stack, after `~x`. -/
example : ∃ s', Runs exEnv.sym (exBefore none).code (0, exCall) ((exBefore none).code.length, s') ∧
    Handed exEnv exArgs (some (-160)) true (exStore.set 2 7) exVals (0x7fff0000 - 288) s' := by
  have hu : UniqueLabels (exBefore none).code := unique_of_nodup _ (by decide)
  obtain ⟨_, s', r, h, _⟩ := C64_direct exShift true exEnv (exBefore none).code (exSite none) exStore (exStore.set 2 7) exVals exTemp none exCall 0 0 rfl
    (exCallable _ none hu) exEvaluated rfl exRel (by decide) (fun i _ => by rw [Nat.zero_add]; rfl)
  rw [Nat.zero_add] at r
  exact ⟨s', r, h⟩

/-- The same through the pointer that is the value of `x`. -/
example : ∃ s' r, Runs exEnv.sym (exBefore (some (.var 0))).code (0, exCall) ((exBefore (some (.var 0))).code.length, s') ∧
    (funcall exShift true exΓ exEnv.loc 16 (exSite (some (.var 0))) exTemp none 0).1.target = some r ∧ s'.r r = BitVec.ofInt 64 (-5) ∧
    Handed exEnv exArgs (some (-160)) true (exStore.set 2 7) exVals (0x7fff0000 - 288) s' := by
  have hu : UniqueLabels (exBefore (some (.var 0))).code := unique_of_nodup _ (by decide)
  obtain ⟨s', r, h1, h2, h3, h4, _⟩ := C64_pointer exShift true exEnv (exBefore (some (.var 0))).code (exSite (some (.var 0))) (.var 0) (-5) exStore exStore
    (exStore.set 2 7) exVals exTemp none exCall 0 0 rfl rfl trivial (by intro x hx; simp [Expr.vars] at hx; show x < 3; omega) (fun _ => trivial) exStoreOk rfl
    (exCallable _ _ hu) exEvaluated rfl exRel (by decide) (fun i _ => by rw [Nat.zero_add]; rfl)
  rw [Nat.zero_add] at h1
  exact ⟨s', r, h1, h2, h3, h4⟩

/-- The result of a function returning `signed char` after such a call. -/
example : ∃ s', execs exEnv.sym (funcall exShift true exΓ exEnv.loc 16 (exSite none) exTemp (some (ity .schar)) 0).1.after
      { exCall with r := fun r => if r = .sp then 0x7fff0000 - 288 else if r = .ax then 0xabcdefe7 else 0 } = some s' ∧
    s'.r .sp = 0x7fff0000 - 256 ∧ InReg .schar (-25) (s'.r .ax) := by
  obtain ⟨s', h1, h2, _, _, h3⟩ := C64_after exShift true exEnv (exSite none) exTemp .schar (-25) (0x7fff0000 - 256)
    { exCall with r := fun r => if r = .sp then 0x7fff0000 - 288 else if r = .ax then 0xabcdefe7 else 0 } 0 (by decide) (by decide) (by decide)
  exact ⟨s', h1, h2, h3⟩

end Slimcc.Props
