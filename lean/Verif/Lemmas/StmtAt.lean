import Verif.Lemmas.SwitchCode
/-! Where the code of a statement stands in a program, and running it. -/
set_option autoImplicit false
namespace Slimcc
open Slimcc.Spec Slimcc.Spec.CTy Slimcc.Ty Slimcc.X86 Slimcc.Gen

/-- A function body in a program: `lm` gives the labels of user names, `ex` the position of the
label of the epilogue. -/
structure Cx where
  hs : HostShift
  opt : Bool
  E : Env
  P : List Line
  rty : CTy
  rtn : Nat
  lm : Nat → Option Nat
  ex : Nat
  /-- The requirements on calls, what calls do, the code of a call, the stack pointer, the memory calls can change, and when the
  machine gets from one state to another in a number of steps. -/
  rule : CallS → Prop
  O : Oracle
  cc : CallS → G
  sp : Word
  scr : Word → Prop
  R : Nat → Nat × St → Nat × St → Prop

/-- An enclosing loop or `switch`; of a `switch`, the type, the cases and the default label. -/
structure JX where
  sw : Option (ITy × List CaseRange × Option Nat)
  names : List Nat
  brk : Nat
  cont : Nat

def actSw : List JX → Option (ITy × List CaseRange × Option Nat)
  | [] => none
  | j :: l => match j.sw with
    | some x => some x
    | none => actSw l

def jumpTo (isCont : Bool) (n : Option Nat) : List JX → Option JX
  | [] => none
  | j :: l => if isCont && j.sw.isSome then jumpTo isCont n l else if named n j.names then some j else jumpTo isCont n l

section
variable (X : Cx)

/-- The requirements on an expression. -/
def EOk (e : Expr) : Prop := e.Wf ∧ (∀ x ∈ e.vars, X.E.dom x) ∧ (X.opt = true → e.Sequenced)

def VoidAt (pc : Nat) (e : Expr) (pc' : Nat) : Prop :=
  EOk X e ∧ ∃ c, CodeAt X.P pc (compileVoid X.hs X.opt X.E.Γ X.E.loc X.E.stk e c).1.code ∧ (compileVoid X.hs X.opt X.E.Γ X.E.loc X.E.stk e c).1.st ≤ X.E.K ∧
    pc' = pc + (compileVoid X.hs X.opt X.E.Γ X.E.loc X.E.stk e c).1.code.length

/-- The requirements on a call. -/
def CallOk (c : CallS) : Prop := (∀ a ∈ c.args, EOk X a.e) ∧ X.rule c ∧ ∀ x, c.dst = some x → X.E.dom x

def CallAt (pc : Nat) (c : CallS) (pc' : Nat) : Prop :=
  CallOk X c ∧ ∃ l, CodeAt X.P pc (X.cc c l).1.code ∧ (X.cc c l).1.st ≤ X.E.K ∧ pc' = pc + (X.cc c l).1.code.length

def OptVoidAt (pc : Nat) (e : Option Expr) (pc' : Nat) : Prop :=
  match e with
  | none => pc' = pc
  | some e => VoidAt X pc e pc'

def ExprAt (pc : Nat) (e : Expr) (pc' : Nat) : Prop :=
  EOk X e ∧ ∃ c, CodeAt X.P pc (compileExpr X.hs X.opt X.E.Γ X.E.loc X.E.stk e c).1.code ∧ (compileExpr X.hs X.opt X.E.Γ X.E.loc X.E.stk e c).1.st ≤ X.E.K ∧
    pc' = pc + (compileExpr X.hs X.opt X.E.Γ X.E.loc X.E.stk e c).1.code.length

def CondAt (j : Bool) (l : Label) (pc : Nat) (e : Expr) (pc' : Nat) : Prop :=
  EOk X e ∧ ∃ c, CodeAt X.P pc (compileCond X.hs X.opt X.E.Γ X.E.loc X.E.stk j l e c).1.code ∧ (compileCond X.hs X.opt X.E.Γ X.E.loc X.E.stk j l e c).1.st ≤ X.E.K ∧
    pc' = pc + (compileCond X.hs X.opt X.E.Γ X.E.loc X.E.stk j l e c).1.code.length

def OptCondAt (l : Label) (pc : Nat) (e : Option Expr) (pc' : Nat) : Prop :=
  match e with
  | none => pc' = pc
  | some e => CondAt X false l pc e pc'

/-- The unique label `u` stands for the labels `ls`. -/
structure LabOk (ctx : List JX) (ls : List Lbl) (u : Nat) : Prop where
  user : ∀ n, .user n ∈ ls → X.lm n = some u
  case : ∀ lo hi, .case lo hi ∈ ls → ∃ t cs d, actSw ctx = some (t, cs, d) ∧ ∀ v, cb t lo ≤ v → v ≤ cb t hi → Cov t cs u v
  dflt : .dflt ∈ ls → ∃ t cs, actSw ctx = some (t, cs, some u)

/-- The table of a `switch` with type `t` and body `b`. -/
structure TblOk (T : CTy) (cs : List CaseRange) (d : Option Nat) (b : Stmt) : Prop where
  inv : CaseInv (ity T) cs
  org : ∀ u v, Cov (ity T) cs u v → ∃ lo hi, .case lo hi ∈ b.labels ∧ cb (ity T) lo ≤ v ∧ v ≤ cb (ity T) hi
  dorg : ∀ u, d = some u → .dflt ∈ b.labels
  ord : ∀ lo hi, .case lo hi ∈ b.labels → cb (ity T) lo ≤ cb (ity T) hi
  ne : NonEmpty T.promote b.labels

/-- The code of a statement is between two positions. -/
inductive At : List JX → List Nat → Stmt → Nat → Nat → Prop
  | skip {ctx : List JX} {nm : List Nat} {pc : Nat} : At ctx nm .skip pc pc
  | expr {ctx : List JX} {nm : List Nat} {e : Expr} {pc pc' : Nat} : VoidAt X pc e pc' → At ctx nm (.expr e) pc pc'
  | call {ctx : List JX} {nm : List Nat} {c : CallS} {pc pc' : Nat} : CallAt X pc c pc' → At ctx nm (.call c) pc pc'
  | seq {ctx : List JX} {nm : List Nat} {a b : Stmt} {pc m pc' : Nat} : At ctx [] a pc m → At ctx [] b m pc' → At ctx nm (.seq a b) pc pc'
  | if_ {ctx : List JX} {nm : List Nat} {c : Expr} {a : Stmt} {l : Label} {pc q m : Nat} : CondAt X false l pc c q → At ctx [] a q m →
      X.P[m]? = some (.lab l) → At ctx nm (.if_ c a) pc (m + 1)
  | ifElse {ctx : List JX} {nm : List Nat} {c : Expr} {a b : Stmt} {l l' : Label} {pc q m r : Nat} : CondAt X false l pc c q → At ctx [] a q m →
      X.P[m]? = some (.jmp l') → X.P[m + 1]? = some (.lab l) → At ctx [] b (m + 2) r → X.P[r]? = some (.lab l') → At ctx nm (.ifElse c a b) pc (r + 1)
  | loop {ctx : List JX} {nm : List Nat} {i c n : Option Expr} {b : Stmt} {bg : Label} {brk cont pc q r t w : Nat} : OptVoidAt X pc i q →
      X.P[q]? = some (.lab bg) → OptCondAt X (.name brk) (q + 1) c r → At (⟨none, nm, brk, cont⟩ :: ctx) [] b r t → X.P[t]? = some (.lab (.name cont)) →
      OptVoidAt X (t + 1) n w → X.P[w]? = some (.jmp bg) → X.P[w + 1]? = some (.lab (.name brk)) → At ctx nm (.loop i c n b) pc (w + 2)
  | dowhile {ctx : List JX} {nm : List Nat} {b : Stmt} {c : Expr} {bg : Label} {brk cont pc t w : Nat} : X.P[pc]? = some (.lab bg) →
      At (⟨none, nm, brk, cont⟩ :: ctx) [] b (pc + 1) t → X.P[t]? = some (.lab (.name cont)) → CondAt X true bg (t + 1) c w →
      X.P[w]? = some (.lab (.name brk)) → At ctx nm (.dowhile b c) pc (w + 1)
  | switch {ctx : List JX} {nm : List Nat} {e : Expr} {b : Stmt} {cs : List CaseRange} {d : Option Nat} {brk pc q r w : Nat} : ExprAt X pc e q →
      CodeAt X.P q (switchCode (swSize (ity (e.ty X.E.Γ))) cs d brk) → r = q + (switchCode (swSize (ity (e.ty X.E.Γ))) cs d brk).length →
      TblOk (e.ty X.E.Γ) cs d b → At (⟨some (ity (e.ty X.E.Γ), cs, d), nm, brk, 0⟩ :: ctx) [] b r w → X.P[w]? = some (.lab (.name brk)) →
      At ctx nm (.switch e b) pc (w + 1)
  | brk {ctx : List JX} {nm : List Nat} {n : Option Nat} {j : JX} {pc : Nat} : jumpTo false n ctx = some j → X.P[pc]? = some (.jmp (.name j.brk)) →
      At ctx nm (.brk n) pc (pc + 1)
  | cont {ctx : List JX} {nm : List Nat} {n : Option Nat} {j : JX} {pc : Nat} : jumpTo true n ctx = some j → X.P[pc]? = some (.jmp (.name j.cont)) →
      At ctx nm (.cont n) pc (pc + 1)
  | lab0 {ctx : List JX} {nm : List Nat} {s : Stmt} {pc pc' : Nat} : At ctx [] s pc pc' → At ctx nm (.lab [] s) pc pc'
  | lab {ctx : List JX} {nm : List Nat} {ls : List Lbl} {s : Stmt} {u pc pc' : Nat} : X.P[pc]? = some (.lab (.name u)) → LabOk X ctx ls u →
      At ctx (userNames ls) s (pc + 1) pc' → At ctx nm (.lab ls s) pc pc'
  | goto {ctx : List JX} {nm : List Nat} {n u pc : Nat} : X.lm n = some u → X.P[pc]? = some (.jmp (.name u)) → At ctx nm (.goto n) pc (pc + 1)
  | ret {ctx : List JX} {nm : List Nat} {pc : Nat} : X.P[pc]? = some (.jmp (.rtn X.rtn)) → At ctx nm (.ret none) pc (pc + 1)
  | retv {ctx : List JX} {nm : List Nat} {e : Expr} {pc q : Nat} : ExprAt X pc (.cast X.rty e) q → X.P[q]? = some (.jmp (.rtn X.rtn)) →
      At ctx nm (.ret (some e)) pc (q + 1)

/-- The code for the rest of the function starts at a position. -/
inductive ContAt : List JX → Kont → Nat → Prop
  | stop : ContAt [] .stop X.ex
  | seq {ctx : List JX} {s : Stmt} {k : Kont} {pc m : Nat} : At X ctx [] s pc m → ContAt ctx k m → ContAt ctx (.seq s k) pc
  | loop {ctx : List JX} {nm : List Nat} {c n : Option Expr} {b : Stmt} {k : Kont} {bg : Label} {brk cont q r t w : Nat} :
      X.P[q]? = some (.lab bg) → OptCondAt X (.name brk) (q + 1) c r → At X (⟨none, nm, brk, cont⟩ :: ctx) [] b r t → X.P[t]? = some (.lab (.name cont)) →
      OptVoidAt X (t + 1) n w → X.P[w]? = some (.jmp bg) → X.P[w + 1]? = some (.lab (.name brk)) → ContAt ctx k (w + 2) →
      ContAt (⟨none, nm, brk, cont⟩ :: ctx) (.loop c n b nm k) t
  | dowhile {ctx : List JX} {nm : List Nat} {b : Stmt} {c : Expr} {k : Kont} {bg : Label} {brk cont q t w : Nat} : X.P[q]? = some (.lab bg) →
      At X (⟨none, nm, brk, cont⟩ :: ctx) [] b (q + 1) t → X.P[t]? = some (.lab (.name cont)) → CondAt X true bg (t + 1) c w →
      X.P[w]? = some (.lab (.name brk)) → ContAt ctx k (w + 1) → ContAt (⟨none, nm, brk, cont⟩ :: ctx) (.dowhile b c nm k) t
  | switch {ctx : List JX} {nm : List Nat} {k : Kont} {x : ITy × List CaseRange × Option Nat} {brk w : Nat} : X.P[w]? = some (.lab (.name brk)) →
      ContAt ctx k (w + 1) → ContAt (⟨some x, nm, brk, 0⟩ :: ctx) (.switch nm k) w
  | jmp {ctx : List JX} {k : Kont} {l : Label} {pc t : Nat} : X.P[pc]? = some (.jmp l) → X.P[t]? = some (.lab l) → ContAt ctx k (t + 1) → ContAt ctx k pc
  | lab {ctx : List JX} {k : Kont} {l : Label} {pc : Nat} : X.P[pc]? = some (.lab l) → ContAt ctx k (pc + 1) → ContAt ctx k pc

/-- The same without jumps that lead there. -/
def Norm (ctx : List JX) : Kont → Nat → Prop
  | .stop, pc => pc = X.ex
  | .seq s k, pc => ∃ m, At X ctx [] s pc m ∧ ContAt X ctx k m
  | .loop c n b nm k, t => ∃ ctx' bg brk cont q r w, ctx = ⟨none, nm, brk, cont⟩ :: ctx' ∧ X.P[q]? = some (Line.lab bg) ∧ OptCondAt X (.name brk) (q + 1) c r ∧
      At X ctx [] b r t ∧ X.P[t]? = some (.lab (.name cont)) ∧ OptVoidAt X (t + 1) n w ∧ X.P[w]? = some (.jmp bg) ∧
      X.P[w + 1]? = some (.lab (.name brk)) ∧ ContAt X ctx' k (w + 2)
  | .dowhile b c nm k, t => ∃ ctx' bg brk cont q w, ctx = ⟨none, nm, brk, cont⟩ :: ctx' ∧ X.P[q]? = some (Line.lab bg) ∧
      At X ctx [] b (q + 1) t ∧ X.P[t]? = some (.lab (.name cont)) ∧ CondAt X true bg (t + 1) c w ∧
      X.P[w]? = some (.lab (.name brk)) ∧ ContAt X ctx' k (w + 1)
  | .switch nm k, w => ∃ ctx' x brk, ctx = ⟨some x, nm, brk, 0⟩ :: ctx' ∧ X.P[w]? = some (.lab (.name brk)) ∧ ContAt X ctx' k (w + 1)

/-- At least one step. -/
def RunsP (c c' : Nat × St) : Prop := ∃ k, steps X.E.sym X.P (k + 1) c = some c'

end

section
variable {X : Cx}

theorem RunsP.runs {c c' : Nat × St} (h : RunsP X c c') : Runs X.E.sym X.P c c' := let ⟨k, h⟩ := h; ⟨k + 1, h⟩

theorem RunsP.trans {a b c : Nat × St} (h : RunsP X a b) (h' : Runs X.E.sym X.P b c) : RunsP X a c := by
  obtain ⟨j, hj⟩ := h
  obtain ⟨k, hk⟩ := h'
  exact ⟨j + k, by rw [show j + k + 1 = (j + 1) + k by omega, steps_add, hj]; exact hk⟩

theorem RunsP.after {a b c : Nat × St} (h : Runs X.E.sym X.P a b) (h' : RunsP X b c) : RunsP X a c := by
  obtain ⟨j, hj⟩ := h
  obtain ⟨k, hk⟩ := h'
  exact ⟨j + k, by rw [show j + k + 1 = j + (k + 1) by omega, steps_add, hj]; exact hk⟩

theorem lab_run {pc : Nat} {l : Label} (h : X.P[pc]? = some (.lab l)) (s : St) : RunsP X (pc, s) (pc + 1, s) :=
  ⟨0, by simp [steps, step, h]⟩

theorem jmp_runP (hu : UniqueLabels X.P) {pc t : Nat} {l : Label} (h : X.P[pc]? = some (.jmp l)) (ht : X.P[t]? = some (.lab l)) (s : St) : RunsP X (pc, s) (t, s) :=
  ⟨0, by simp [steps, step, h, find_of_at _ hu _ _ ht]⟩

theorem jmp_over (hu : UniqueLabels X.P) {pc t : Nat} {l : Label} (h : X.P[pc]? = some (.jmp l)) (ht : X.P[t]? = some (.lab l)) (s : St) : RunsP X (pc, s) (t + 1, s) :=
  (jmp_runP hu h ht s).trans (lab_run ht s).runs

theorem cont_norm (hu : UniqueLabels X.P) {ctx : List JX} {k : Kont} {pc : Nat} (h : ContAt X ctx k pc) (s : St) :
    ∃ pc1, Runs X.E.sym X.P (pc, s) (pc1, s) ∧ Norm X ctx k pc1 := by
  induction h with
  | stop => exact ⟨_, Runs.refl _ _ _, rfl⟩
  | seq h1 h2 => exact ⟨_, Runs.refl _ _ _, _, h1, h2⟩
  | loop h1 h2 h3 h4 h5 h6 h7 h8 => exact ⟨_, Runs.refl _ _ _, _, _, _, _, _, _, _, rfl, h1, h2, h3, h4, h5, h6, h7, h8⟩
  | dowhile h1 h2 h3 h4 h5 h6 => exact ⟨_, Runs.refl _ _ _, _, _, _, _, _, _, rfl, h1, h2, h3, h4, h5, h6⟩
  | switch h1 h2 => exact ⟨_, Runs.refl _ _ _, _, _, _, rfl, h1, h2⟩
  | jmp h1 h2 _ ih =>
    obtain ⟨p, r, n⟩ := ih
    exact ⟨p, (jmp_over hu h1 h2 s).runs.trans r, n⟩
  | lab h1 _ ih =>
    obtain ⟨p, r, n⟩ := ih
    exact ⟨p, (lab_run h1 s).runs.trans r, n⟩

/-- Where `break` goes. -/
theorem cont_brk {ctx : List JX} {k : Kont} {pc : Nat} (h : ContAt X ctx k pc) (n : Option Nat) :
    ∀ {k' : Kont}, k.brk n = some k' → ∃ j ctx' q, jumpTo false n ctx = some j ∧ X.P[q]? = some (.lab (.name j.brk)) ∧ ContAt X ctx' k' (q + 1) := by
  induction h with
  | stop => intro k' h; cases h
  | seq _ _ ih => exact fun h => ih h
  | jmp _ _ _ ih => exact fun h => ih h
  | lab _ _ ih => exact fun h => ih h
  | loop h1 h2 h3 h4 h5 h6 h7 h8 ih =>
    intro k' h
    simp only [Kont.brk] at h
    simp only [jumpTo, Bool.false_and, Bool.false_eq_true, if_false]
    split at h
    · rename_i hn
      injection h with h; subst h
      rw [if_pos hn]
      exact ⟨_, _, _, rfl, h7, h8⟩
    · rename_i hn
      rw [if_neg hn]
      exact ih h
  | dowhile h1 h2 h3 h4 h5 h6 ih =>
    intro k' h
    simp only [Kont.brk] at h
    simp only [jumpTo, Bool.false_and, Bool.false_eq_true, if_false]
    split at h
    · rename_i hn
      injection h with h; subst h
      rw [if_pos hn]
      exact ⟨_, _, _, rfl, h5, h6⟩
    · rename_i hn
      rw [if_neg hn]
      exact ih h
  | switch h1 h2 ih =>
    intro k' h
    simp only [Kont.brk] at h
    simp only [jumpTo, Bool.false_and, Bool.false_eq_true, if_false]
    split at h
    · rename_i hn
      injection h with h; subst h
      rw [if_pos hn]
      exact ⟨_, _, _, rfl, h1, h2⟩
    · rename_i hn
      rw [if_neg hn]
      exact ih h

/-- Where `continue` goes. -/
theorem cont_cont {ctx : List JX} {k : Kont} {pc : Nat} (h : ContAt X ctx k pc) (n : Option Nat) :
    ∀ {k' : Kont}, k.cont n = some k' → ∃ j ctx' q, jumpTo true n ctx = some j ∧ X.P[q]? = some (.lab (.name j.cont)) ∧ ContAt X ctx' k' q := by
  induction h with
  | stop => intro k' h; cases h
  | seq _ _ ih => exact fun h => ih h
  | jmp _ _ _ ih => exact fun h => ih h
  | lab _ _ ih => exact fun h => ih h
  | loop h1 h2 h3 h4 h5 h6 h7 h8 ih =>
    intro k' h
    simp only [Kont.cont] at h
    simp only [jumpTo, Option.isSome_none, Bool.and_false, Bool.false_eq_true, if_false]
    split at h
    · rename_i hn
      injection h with h; subst h
      rw [if_pos hn]
      exact ⟨_, _, _, rfl, h4, .loop h1 h2 h3 h4 h5 h6 h7 h8⟩
    · rename_i hn
      rw [if_neg hn]
      exact ih h
  | dowhile h1 h2 h3 h4 h5 h6 ih =>
    intro k' h
    simp only [Kont.cont] at h
    simp only [jumpTo, Option.isSome_none, Bool.and_false, Bool.false_eq_true, if_false]
    split at h
    · rename_i hn
      injection h with h; subst h
      rw [if_pos hn]
      exact ⟨_, _, _, rfl, h3, .dowhile h1 h2 h3 h4 h5 h6⟩
    · rename_i hn
      rw [if_neg hn]
      exact ih h
  | switch h1 h2 ih =>
    intro k' h
    simp only [Kont.cont] at h
    simp only [jumpTo, Option.isSome_some, Bool.and_true, if_true]
    exact ih h

/-- The code of a statement found by a label. -/
theorem find_at (p : Lbl → Bool) (inner : Bool) {ctx : List JX} {nm : List Nat} {s : Stmt} {pc pc' : Nat} (h : At X ctx nm s pc pc') :
    ∀ (k : Kont) (nm' : List Nat) (s' : Stmt) (k' : Kont), ContAt X ctx k pc' → Spec.find p inner s nm k = some (nm', s', k') →
      ∃ ls u ctx' q q', ls.any p = true ∧ X.P[q]? = some (.lab (.name u)) ∧ LabOk X ctx' ls u ∧ At X ctx' nm' s' (q + 1) q' ∧ ContAt X ctx' k' q' ∧
        (inner = false → actSw ctx' = actSw ctx ∧ ∀ x ∈ ls, x ∈ s.labels) := by
  induction h with
  | skip | expr _ | call _ | brk _ _ | cont _ _ | goto _ _ | ret _ | retv _ _ => intro k nm' s' k' _ h; cases h
  | seq _ hb iha ihb =>
    intro k nm' s' k' hk h
    simp only [Spec.find] at h
    rw [Option.or_eq_some_iff] at h
    rcases h with h | ⟨_, h⟩
    · obtain ⟨ls, u, c', q, q', a1, a2, a3, a4, a5, a6⟩ := iha _ _ _ _ (.seq hb hk) h
      exact ⟨ls, u, c', q, q', a1, a2, a3, a4, a5, fun i => ⟨(a6 i).1, fun x hx => List.mem_append_left _ ((a6 i).2 x hx)⟩⟩
    · obtain ⟨ls, u, c', q, q', a1, a2, a3, a4, a5, a6⟩ := ihb _ _ _ _ hk h
      exact ⟨ls, u, c', q, q', a1, a2, a3, a4, a5, fun i => ⟨(a6 i).1, fun x hx => List.mem_append_right _ ((a6 i).2 x hx)⟩⟩
  | if_ _ _ hl ih => exact fun k nm' s' k' hk h => ih k nm' s' k' (.lab hl hk) h
  | ifElse _ _ h1 h2 _ h4 iha ihb =>
    intro k nm' s' k' hk h
    simp only [Spec.find] at h
    rw [Option.or_eq_some_iff] at h
    rcases h with h | ⟨_, h⟩
    · obtain ⟨ls, u, c', q, q', a1, a2, a3, a4, a5, a6⟩ := iha _ _ _ _ (.jmp h1 h4 hk) h
      exact ⟨ls, u, c', q, q', a1, a2, a3, a4, a5, fun i => ⟨(a6 i).1, fun x hx => List.mem_append_left _ ((a6 i).2 x hx)⟩⟩
    · obtain ⟨ls, u, c', q, q', a1, a2, a3, a4, a5, a6⟩ := ihb _ _ _ _ (.lab h4 hk) h
      exact ⟨ls, u, c', q, q', a1, a2, a3, a4, a5, fun i => ⟨(a6 i).1, fun x hx => List.mem_append_right _ ((a6 i).2 x hx)⟩⟩
  | loop h0 h1 h2 h3 h4 h5 h6 h7 ih => exact fun k nm' s' k' hk h => ih _ nm' s' k' (.loop h1 h2 h3 h4 h5 h6 h7 hk) h
  | dowhile h1 h2 h3 h4 h5 ih => exact fun k nm' s' k' hk h => ih _ nm' s' k' (.dowhile h1 h2 h3 h4 h5 hk) h
  | switch h1 h2 h3 h4 h5 h6 ih =>
    intro k nm' s' k' hk h
    simp only [Spec.find] at h
    split at h
    · rename_i hi
      obtain ⟨ls, u, c', q, q', a1, a2, a3, a4, a5, a6⟩ := ih _ _ _ _ (.switch h6 hk) h
      exact ⟨ls, u, c', q, q', a1, a2, a3, a4, a5, fun i => by rw [hi] at i; cases i⟩
    · cases h
  | lab0 _ ih => exact fun k nm' s' k' hk h => ih k nm' s' k' hk (by simpa [Spec.find, userNames] using h)
  | lab h1 h2 h3 ih =>
    intro k nm' s' k' hk h
    simp only [Spec.find] at h
    split at h
    · rename_i hp
      injection h with h
      simp only [Prod.mk.injEq] at h
      obtain ⟨rfl, rfl, rfl⟩ := h
      exact ⟨_, _, _, _, _, hp, h1, h2, h3, hk, fun _ => ⟨rfl, fun x hx => List.mem_append_left _ hx⟩⟩
    · obtain ⟨ls, u, c', q, q', a1, a2, a3, a4, a5, a6⟩ := ih _ _ _ _ hk h
      exact ⟨ls, u, c', q, q', a1, a2, a3, a4, a5, fun i => ⟨(a6 i).1, fun x hx => List.mem_append_right _ ((a6 i).2 x hx)⟩⟩

theorem find_none (p : Lbl → Bool) : ∀ (s : Stmt) (nm : List Nat) (k : Kont), Spec.find p false s nm k = none → ∀ x ∈ s.labels, p x = false
  | .skip, _, _, _, _, h => by cases h
  | .expr _, _, _, _, _, h => by cases h
  | .call _, _, _, _, _, h => by cases h
  | .brk _, _, _, _, _, h => by cases h
  | .cont _, _, _, _, _, h => by cases h
  | .goto _, _, _, _, _, h => by cases h
  | .ret _, _, _, _, _, h => by cases h
  | .switch _ _, _, _, _, _, h => by cases h
  | .seq a b, nm, k, hf, x, h => by
    simp only [Spec.find, Option.or_eq_none_iff] at hf
    rcases List.mem_append.1 h with h | h
    · exact find_none p a _ _ hf.1 x h
    · exact find_none p b _ _ hf.2 x h
  | .if_ _ a, nm, k, hf, x, h => find_none p a _ _ hf x h
  | .ifElse _ a b, nm, k, hf, x, h => by
    simp only [Spec.find, Option.or_eq_none_iff] at hf
    rcases List.mem_append.1 h with h | h
    · exact find_none p a _ _ hf.1 x h
    · exact find_none p b _ _ hf.2 x h
  | .loop _ _ _ b, nm, k, hf, x, h => find_none p b _ _ hf x h
  | .dowhile b _, nm, k, hf, x, h => find_none p b _ _ hf x h
  | .lab ls s, nm, k, hf, x, h => by
    simp only [Spec.find] at hf
    split at hf
    · cases hf
    · rename_i hn
      rcases List.mem_append.1 h with h | h
      · have : ls.any p = false := by simpa using hn
        exact List.any_eq_false.1 this x h |> fun q => by simpa using q
      · exact find_none p s _ _ hf x h

end
end Slimcc
