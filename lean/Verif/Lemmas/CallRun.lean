import Verif.Lemmas.CallSet
/-! Running the pieces of a call: the stack pointer moves, and registers are loaded directly. -/
set_option autoImplicit false
namespace Slimcc
open Slimcc.Spec Slimcc.Spec.CTy Slimcc.Ty Slimcc.X86 Slimcc.Gen Slimcc.AGen

section
variable {E : Env} {P : List Line} {opt : Bool} {W : Word → Prop} {K st : Nat}

/-- What code may change that also writes to the memory `W`. -/
structure EffC (E : Env) (W : Word → Prop) (gp st : Nat) (s s' : St) : Prop where
  bp : s'.r .bp = s.r .bp
  regs : ∀ i, gp ≤ i → i < GP_SLOTS → s'.r (.tmp i) = s.r (.tmp i)
  mem : ∀ a, ¬ W a → (∀ x, E.dom x → ¬ InBlk (E.addr x) (E.size x) a) → (∀ k, k < st → ¬ InBlk (E.slot k) 8 a) → s'.m a = s.m a

theorem EffC.trans {s s1 s2 : St} (h : EffC E W K st s s1) (h' : EffC E W K st s1 s2) : EffC E W K st s s2 :=
  ⟨h'.bp.trans h.bp, fun i a b => (h'.regs i a b).trans (h.regs i a b), fun a x y z => (h'.mem a x y z).trans (h.mem a x y z)⟩

def DoesC (E : Env) (P : List Line) (W : Word → Prop) (gp st : Nat) (o : Out) (s : St) (Q : St → Prop) : Prop :=
  ∀ pc, CodeAt P pc o.code → ∃ s', Runs E.sym P (pc, s) (pc + o.code.length, s') ∧ EffC E W gp st s s' ∧ Q s'

theorem DoesC.imp {o : Out} {s : St} {Q R : St → Prop} (h : DoesC E P W K st o s Q) (hi : ∀ s', EffC E W K st s s' → Q s' → R s') : DoesC E P W K st o s R := by
  intro pc hc
  obtain ⟨s', h1, h2, h3⟩ := h pc hc
  exact ⟨s', h1, h2, hi s' h2 h3⟩

theorem doesC_seq (a b : G) (c : Nat) (s : St) (Q R : St → Prop) (ha : DoesC E P W K st (a c).1 s Q)
    (hb : ∀ s1, EffC E W K st s s1 → Q s1 → DoesC E P W K st (b (a c).2).1 s1 R) : DoesC E P W K st ((a ;; b) c).1 s R := by
  intro pc hc
  have hc' : CodeAt P pc ((a c).1.code ++ (b (a c).2).1.code) := hc
  rw [codeAt_append] at hc'
  obtain ⟨s1, r1, e1, q1⟩ := ha pc hc'.1
  obtain ⟨s2, r2, e2, q2⟩ := hb s1 e1 q1 _ hc'.2
  refine ⟨s2, ?_, e1.trans e2, q2⟩
  show Runs E.sym P (pc, s) (pc + ((a c).1.code ++ (b (a c).2).1.code).length, s2)
  rw [List.length_append, ← Nat.add_assoc]
  exact r1.trans r2

theorem doesC_nil (c : Nat) (s : St) (Q : St → Prop) (h : Q s) : DoesC E P W K st (lines [] c).1 s Q :=
  fun pc _ => ⟨s, Runs.refl P E.sym _, ⟨rfl, fun _ _ _ => rfl, fun _ _ _ _ => rfl⟩, h⟩

theorem doesC_inss (l : List Ins) (c : Nat) (s s' : St) (Q : St → Prop) (h : execs E.sym l s = some s') (he : EffC E W K st s s') (hq : Q s') :
    DoesC E P W K st (inss l c).1 s Q := by
  intro pc hc
  refine ⟨s', ?_, he, hq⟩
  have := runs_execs P E.sym l s s' h pc hc
  simpa [inss, lines] using this

theorem Does.toC {o : Out} {s : St} {Q : St → Prop} (h : Does E P o s Q) (hg : o.gp ≤ K) (hst : o.st ≤ st) : DoesC E P W K st o s fun s' =>
      s'.r .sp = s.r .sp ∧ (∀ b, E.Outside st b → s'.m b = s.m b) ∧ Q s' := by
  intro pc hc
  obtain ⟨s', h1, h2, h3⟩ := h pc hc
  have mem : ∀ b, E.Outside st b → s'.m b = s.m b := fun b hb => h2.mem b hb.1 fun k hk => hb.2 k (by omega)
  exact ⟨s', h1, ⟨h2.bp, fun i a b => h2.regs i (by omega) b, fun a _ x y => mem a ⟨x, y⟩⟩, h2.sp, mem, h3⟩

theorem Does.objC {t : CTy} {A : Word} {o : Out} {s : St} {Q : St → Prop} (h : Does (withObj E t A) P o s Q) (hg : o.gp ≤ K) (hst : o.st ≤ st)
    (hW : ∀ b, InBlk A t.bytes b → W b) : DoesC E P W K st o s fun s' => s'.r .sp = s.r .sp ∧ (∀ b, E.Outside st b → ¬ InBlk A t.bytes b → s'.m b = s.m b) ∧ Q s' := by
  intro pc hc
  obtain ⟨s', h1, h2, h3⟩ := h pc hc
  have mem : ∀ b, E.Outside st b → ¬ InBlk A t.bytes b → s'.m b = s.m b := by
    intro b hb hn
    refine h2.mem b (fun x hx => ?_) fun k hk => hb.2 k (by omega)
    cases x with
    | zero => rw [withObj_addr0]; exact hn
    | succ x => exact hb.1 x hx
  exact ⟨s', h1, ⟨h2.bp, fun i a b => h2.regs i (by omega) b, fun a w x y => mem a ⟨x, y⟩ fun hb => w (hW a hb)⟩, h2.sp, mem, h3⟩

/-! Straight lines of code. -/

theorem straight_steps (sym : Nat → Word) (l : List Ins) : ∀ (k pc : Nat) (s s' : St) (pc' : Nat), steps sym (l.map .ins) k (pc, s) = some (pc', s') →
    pc' = pc + k ∧ execs sym ((l.drop pc).take k) s = some s'
  | 0, pc, s, s', pc', h => by
    simp only [steps, Option.some.injEq, Prod.mk.injEq] at h
    obtain ⟨rfl, rfl⟩ := h
    exact ⟨rfl, by simp [execs]⟩
  | k + 1, pc, s, s', pc', h => by
    simp only [steps] at h
    cases hi : l[pc]? with
    | none =>
      have : step sym (l.map .ins) (pc, s) = none := by simp [step, hi]
      rw [this] at h; cases h
    | some i =>
      have hst : step sym (l.map .ins) (pc, s) = (exec sym i s).map fun s => (pc + 1, s) := by simp [step, hi]
      rw [hst] at h
      cases he : exec sym i s with
      | none => rw [he] at h; cases h
      | some s1 =>
        rw [he] at h
        obtain ⟨h1, h2⟩ := straight_steps sym l k (pc + 1) s1 s' pc' h
        obtain ⟨hlt, hge⟩ := List.getElem?_eq_some_iff.1 hi
        refine ⟨by omega, ?_⟩
        rw [List.drop_eq_getElem_cons hlt, hge, List.take_succ_cons]
        simp only [execs, he, Option.bind_some]
        exact h2

theorem does_execs (l : List Ins) (c : Nat) (s : St) (Q : St → Prop) (h : Does E (l.map .ins) (inss l c).1 s Q) : ∃ s', execs E.sym l s = some s' ∧ Q s' := by
  obtain ⟨s', ⟨k, h1⟩, _, h3⟩ := h 0 (fun i _ => by rw [Nat.zero_add]; rfl)
  obtain ⟨e, h2⟩ := straight_steps E.sym l k 0 s s' _ h1
  have hl : (inss l c).1.code.length = l.length := by simp [inss, lines]
  rw [hl] at e
  rw [← (by omega : l.length = k), List.drop_zero, List.take_length] at h2
  exact ⟨s', h2, h3⟩

/-- The code loads the same value whatever the register. -/
def Any (sym : Nat → Word) (code : Reg → List Ins) (s : St) : Prop := ∃ w f, ∀ r, execs sym (code r) s = some { s.setR r w with f := f }

theorem any_one (sym : Nat → Word) (i : Reg → Ins) (s : St) (w : Word) (f : Option Flags) (h : ∀ r, exec sym (i r) s = some { s.setR r w with f := f }) :
    Any sym (fun r => [i r]) s := ⟨w, f, fun r => by simp only [execs, h, Option.bind_some]⟩

theorem any_mov (sym : Nat → Word) (z : Nat) (hz : z = 4 ∨ z = 8) (o : Opd) (s : St) : Any sym (fun r => [.mov z o (.reg r)]) s :=
  any_one sym _ s (zx z (X86.get sym s z o)) s.f fun r => by simp only [exec, put', put_of_rop _ _ _ hz]; rfl

theorem any_movx (sym : Nat → Word) (sgn : Bool) (a z : Nat) (hz : z = 4 ∨ z = 8) (o : Opd) (s : St) : Any sym (fun r => [.movx sgn a z o r]) s :=
  any_one sym _ s (zx z (if sgn then sx a (X86.get sym s a o) else X86.get sym s a o)) s.f fun r => by simp only [exec, put_of_rop _ _ _ hz]; rfl

theorem any_loadExt (sym : Nat → Word) (t : ITy) (m : MemOp) (s : St) : Any sym (fun r => [loadExt t m r]) s := by
  unfold loadExt
  by_cases h : t.size = 1 ∨ t.size = 2
  · simp only [h, if_true]
    exact any_movx sym _ _ 4 (Or.inl rfl) _ s
  · simp only [h, if_false]
    exact any_mov sym _ (by have := size_cases t; omega) _ s

theorem any_loadExt64 (sym : Nat → Word) (t : ITy) (m : MemOp) (s : St) : Any sym (fun r => [loadExt64 t m r]) s :=
  any_movx sym _ _ 8 (Or.inr rfl) _ s

theorem any_loadVal (sym : Nat → Word) (t : ITy) (v : Word) (s : St) : Any sym (fun r => loadValTo r t v) s := by
  unfold loadValTo
  by_cases h0 : v = 0
  · simp only [h0, if_true]
    exact any_one sym _ s 0 none fun r => xor_self (E := { Γ := fun _ => .int, dom := fun _ => False, loc := fun _ => .frame 0, stk := 0, K := 0, bp := 0, sym := sym }) 4 r s (Or.inl rfl)
  · simp only [if_neg h0]
    by_cases h1 : v = zx 4 v
    · simp only [if_pos h1]; exact any_mov sym 4 (Or.inl rfl) _ s
    · simp only [if_neg h1]
      by_cases h2 : v = sx 4 v
      · simp only [if_pos h2]
        by_cases h8 : t.size = 8
        · simp only [if_pos h8]; exact any_mov sym 8 (Or.inr rfl) _ s
        · simp only [if_neg h8]; exact any_mov sym 4 (Or.inl rfl) _ s
      · simp only [if_neg h2]; exact any_mov sym 8 (Or.inr rfl) _ s

theorem loadOptTo_any (sym : Nat → Word) (loc : Nat → MemOp) (n : Node) (s : St) : (∀ r, loadOptTo loc r n = none) ∨
    ∃ code : Reg → List Ins, (∀ r, loadOptTo loc r n = some (code r)) ∧ loadOpt loc n = some (inss (code .ax)) ∧ Any sym code s := by
  unfold loadOptTo loadOpt
  split
  · rename_i t e
    cases hm : memop e with
    | none => exact Or.inl fun _ => rfl
    | some x =>
      simp only [hm]
      by_cases h1 : t.size > e.ty.size
      · simp only [if_pos h1]
        by_cases h2 : (!e.ty.uns && decide (t.size = 8)) = true
        · simp only [if_pos h2]; exact Or.inr ⟨_, fun _ => rfl, rfl, any_loadExt64 sym _ _ s⟩
        · simp only [if_neg h2]
          by_cases h3 : (!(decide (t.size = 2) && t.uns && !e.ty.uns)) = true
          · simp only [if_pos h3]; exact Or.inr ⟨_, fun _ => rfl, rfl, any_loadExt sym _ _ s⟩
          · simp only [if_neg h3]; exact Or.inl fun _ => trivial
      · simp only [if_neg h1]
        by_cases h2 : t.kind ≠ .bool
        · simp only [if_pos h2]; exact Or.inr ⟨_, fun _ => rfl, rfl, any_loadExt sym _ _ s⟩
        · simp only [if_neg h2]; exact Or.inl fun _ => trivial
  · exact Or.inl fun _ => rfl

/-- From the code for %rax to that for another register. -/
theorem any_to {code : Reg → List Ins} {s s1 : St} (ha : Any E.sym code s) (h : execs E.sym (code .ax) s = some s1) (r : Reg) :
    ∃ s', execs E.sym (code r) s = some s' ∧ s'.r r = s1.r .ax ∧ s'.m = s.m ∧ ∀ q, q ≠ r → s'.r q = s.r q := by
  obtain ⟨w, f, hw⟩ := ha
  refine ⟨_, hw r, ?_, rfl, fun q hq => setR_other _ _ _ _ hq⟩
  rw [hw .ax] at h
  injection h with h
  rw [← h]
  show (s.setR r w).r r = (s.setR .ax w).r .ax
  rw [setR_same, setR_same]

theorem loadValTo_ax (t : ITy) (v : Word) : loadValTo .ax t v = loadVal t v := rfl

theorem argReg_ne_bp (k : Nat) : argReg k ≠ .bp ∧ argReg k ≠ .sp := by
  unfold argReg
  match k with
  | 0 | 1 | 2 | 3 | 4 | 5 => constructor <;> simp
  | k + 6 => constructor <;> simp [List.getD]

theorem effC_reg {s s' : St} (r : Reg) (hr : r ≠ .bp) (hK : ∀ j, r = .tmp j → j < K) (hm : s'.m = s.m) (h : ∀ q, q ≠ r → s'.r q = s.r q) : EffC E W K st s s' :=
  ⟨h _ hr.symm, fun i hi _ => h _ fun e => by have := hK i e.symm; omega, fun a _ _ _ => by rw [hm]⟩

/-- An argument that has no local variable is evaluated when its register is loaded. -/
theorem placeArg_eval (hok : E.Ok) (hu : UniqueLabels P) (hs : HostShift) (e : Expr) (τ τ' : Store) (s : St) (v : Int) (c : Nat) (temp : Int) (k gp : Nat)
    (h : Ready E opt e τ s) (hv : ceval E.Γ e τ = .ok (v, τ')) (hsp : spills hs opt E.loc k (build hs opt E.Γ e) = false)
    (hK : ∀ j, argReg gp = .tmp j → j < K) (hst : st ≤ E.K)
    (hg : (placeArg hs opt E.loc E.stk temp k gp (build hs opt E.Γ e) c).1.gp ≤ K) (ht : (placeArg hs opt E.loc E.stk temp k gp (build hs opt E.Γ e) c).1.st ≤ st) :
    DoesC E P W K st (placeArg hs opt E.loc E.stk temp k gp (build hs opt E.Γ e) c).1 s fun s' =>
      s'.r .sp = s.r .sp ∧ Rel E τ' s'.m ∧ (∀ b, E.Outside st b → s'.m b = s.m b) ∧ Reps (ity (e.ty E.Γ)) v (s'.r (argReg gp)) ∧ (k ≠ 0 → ∀ q, q ≠ argReg gp → s'.r q = s.r q) := by
  have hnev := refines_ok ((h.impl hs).ref τ h.sok) hv
  have hp := h.pre hs
  have hnt := (h.impl hs).ty
  have hbs := argReg_ne_bp gp
  have direct : ∀ (g : G) (code : Reg → List Ins), g = inss (code .ax) → Any E.sym code s → (∀ P, ExprOk E P opt g (build hs opt E.Γ e)) →
      DoesC E P W K st (inss (code (argReg gp)) c).1 s fun s' =>
        s'.r .sp = s.r .sp ∧ Rel E τ' s'.m ∧ (∀ b, E.Outside st b → s'.m b = s.m b) ∧ Reps (ity (e.ty E.Γ)) v (s'.r (argReg gp)) ∧ (k ≠ 0 → ∀ q, q ≠ argReg gp → s'.r q = s.r q) := by
    rintro g code rfl ha hx
    obtain ⟨s1, e1, q1⟩ := does_execs _ c s _ (hx _ ty_int 0 τ s v τ' c hp hnev (Nat.zero_le _))
    obtain ⟨s', x1, x2, x3, x4⟩ := any_to ha e1 (argReg gp)
    obtain ⟨s2, y1, y2, y3, y4⟩ := any_to ha e1 .ax
    have : s2 = s1 := by rw [e1] at y1; injection y1 with y1; exact y1.symm
    subst this
    refine doesC_inss _ c s s' _ x1 (effC_reg _ hbs.1 hK x3 x4) ⟨x4 _ hbs.2.symm, ?_, fun b _ => by rw [x3], ?_, fun _ => x4⟩
    · rw [x3, ← y3]; exact q1.1
    · rw [x2, ← hnt]; exact q1.2.1
  unfold spills at hsp
  by_cases ho : opt = true
  · rw [if_pos ho] at hsp
    unfold placeArg at hg ht ⊢
    rw [if_pos ho] at hg ht ⊢
    cases hev : evalNode hs (build hs opt E.Γ e) with
    | ok u =>
      dsimp only
      exact direct _ (fun r => loadValTo r _ u) rfl (any_loadVal _ _ _ s) fun P => constLoad_ok hs _ u hev
    | _ =>
      rw [hev] at hg ht hsp
      dsimp only at hg ht hsp ⊢
      rcases loadOptTo_any E.sym E.loc (build hs opt E.Γ e) s with hn | ⟨code, h1, h2, h3⟩
      · rw [hn] at hg ht hsp ⊢
        dsimp only at hg ht ⊢
        cases hm : memop (build hs opt E.Γ e) with
        | some x =>
          dsimp only
          exact direct _ (fun r => [loadExt _ _ r]) rfl (any_loadExt _ _ _ s) fun P => memLoad_ok hok _ x hm
        | none =>
          rw [hm] at hg ht hsp
          dsimp only at hg ht hsp ⊢
          have hk : k = 0 := by simpa using hsp
          rw [if_pos hk] at hg ht ⊢
          have hg1 : (genExpr hs opt E.loc E.stk (build hs opt E.Γ e) c).1.gp ≤ K := by
            have : max (genExpr hs opt E.loc E.stk (build hs opt E.Γ e) c).1.gp _ ≤ K := hg
            omega
          have hd := compileExpr_ok hok hu hs e τ τ' s v c h hv (Nat.le_trans (seq_st_le ht).1 hst)
          refine doesC_seq _ _ c s _ _ (hd.toC hg1 (seq_st_le ht).1) fun s1 e1 q1 => ?_
          have hx : execs E.sym [.mov 8 (.reg .ax) (.reg (argReg gp))] s1 = some (s1.setR (argReg gp) (s1.r .ax)) := by
            simp only [execs, exec, put', X86.get, put_of_rop 8 _ _ (Or.inr rfl), zx8, Option.bind_some]
          refine doesC_inss _ _ s1 _ _ hx (effC_reg _ hbs.1 hK rfl fun q hq => setR_other _ _ _ _ hq) ⟨?_, q1.2.2.1, q1.2.1, ?_, fun hk' => absurd hk hk'⟩
          · rw [setR_other _ _ _ _ hbs.2.symm, q1.1]
          · rw [setR_same]; exact q1.2.2.2
      · rw [h1] 
        dsimp only
        exact direct _ code rfl h3 fun P => loadOpt_ok hok _ _ h2
  · rw [if_neg ho] at hsp; cases hsp

/-- An argument that has been assigned to its local variable. -/
theorem placeArg_temp (hok : E.Ok) (hs : HostShift) (t : CTy) (n : Node) (s : St) (v : Int) (c : Nat) (temp : Int) (k gp : Nat) (A : Word)
    (hn : n.ty = ity t) (hv : InRange t v) (hA : E.Apart A t.bytes) (hd : ea E.sym s (.frame temp) = A) (hm : Stored t v A s.m)
    (hsp : spills hs opt E.loc k n = true) (hK : ∀ j, argReg gp = .tmp j → j < K) :
    DoesC E P W K st (placeArg hs opt E.loc E.stk temp k gp n c).1 s fun s' =>
      s'.m = s.m ∧ s'.r .sp = s.r .sp ∧ Reps (ity t) v (s'.r (argReg gp)) ∧ ∀ q, q ≠ argReg gp → s'.r q = s.r q := by
  have hcode : placeArg hs opt E.loc E.stk temp k gp n = inss [loadExt n.ty (.frame temp) (argReg gp)] := by
    unfold spills at hsp
    unfold placeArg
    by_cases ho : opt = true
    · rw [if_pos ho] at hsp ⊢
      cases hev : evalNode hs n with
      | ok u => rw [hev] at hsp; cases hsp
      | _ =>
        rw [hev] at hsp
        dsimp only at hsp ⊢
        rcases loadOptTo_any E.sym E.loc n s with hn | ⟨code, h1, h2, h3⟩
        · rw [hn] at hsp ⊢
          dsimp only
          cases hm : memop n with
          | some x => rw [hm] at hsp; simp at hsp
          | none =>
            rw [hm] at hsp
            dsimp only
            have hk : k ≠ 0 := by simpa using hsp
            rw [if_neg hk]
        · rw [h1] at hsp; simp at hsp
    · rw [if_neg ho]
  rw [hcode, hn]
  have hbs := argReg_ne_bp gp
  let σ' : Store := fun | 0 => v | _ => 0
  have hrd : rd s.m A t.bytes = zx t.bytes (BitVec.ofInt 64 v) := hm
  obtain ⟨s1, e1, _, _, q1⟩ : Calc (withObj { E with dom := fun _ => False } t A) [loadExt (ity t) (.frame temp) .ax] s fun s' => Reps (ity t) v (s'.r .ax) ∧ ∀ q, q ≠ .ax → s'.r q = s.r q := by
    refine load_calc (σ := σ') ?_ (x := 0) trivial (ity t) v (.frame temp) .ax (ity_wf t) (by rw [cty_ity]; exact hv) ?_ ?_ ?_ scratch_ax
    · rw [rel_iff]
      intro x hx
      cases x with
      | zero => rw [withObj_addr0]; exact hrd
      | succ x => exact hx.elim
    · rw [← bytes_size]; exact Nat.le_refl _
    · show _ ∣ v - v
      simp
    · rw [withObj_addr0]; exact hd
  obtain ⟨s', x1, x2, x3, x4⟩ := any_to (E := E) (any_loadExt E.sym (ity t) (.frame temp) s) e1 (argReg gp)
  exact doesC_inss _ c s s' _ x1 (effC_reg _ hbs.1 hK x3 x4) ⟨x3, x4 _ hbs.2.symm, by rw [x2]; exact q1.1, x4⟩

end
end Slimcc
