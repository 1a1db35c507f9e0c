import Verif.Lemmas.AtomicSeg
import Verif.Lemmas.StmtLabels
/-! The labels of the code of a thread. -/
set_option autoImplicit false
namespace Slimcc
open Slimcc.Spec Slimcc.Spec.CTy Slimcc.Ty Slimcc.X86 Slimcc.Gen

theorem freshS_tmp {N : List Nat} {push : TLoc → List Ins} {body : G} {pop : TLoc → List Ins} (h : FreshS N body) : FreshS N (tmp push body pop) := by
  intro c
  have e : labs (tmp push body pop c).1.code = labs (body c).1.code := by
    simp only [tmp, labs_append, labs_ins, List.nil_append, List.append_nil]
  have e2 : (tmp push body pop c).2 = (body c).2 := rfl
  rw [e, e2]
  exact h c

theorem freshS_left {N : List Nat} {a b : G} (ha : FreshS N a) (hb : Fresh b) : FreshS N (a ;; b) := by
  have := freshS_seq ha hb.s (by simp)
  rwa [List.append_nil] at this

theorem freshS_right {N : List Nat} {a b : G} (ha : Fresh a) (hb : FreshS N b) : FreshS N (a ;; b) := by
  have := freshS_seq ha.s hb (by simp)
  rwa [List.nil_append] at this

theorem freshS_name (k : Nat) : FreshS [k] (lines [.lab (.name k)]) :=
  fun c => ⟨Nat.le_refl _, nodup1 _, fun l hl => Or.inl ⟨k, by simp, by simpa [lines, labs, lab?] using hl⟩⟩

section
variable (hs : HostShift) (opt : Bool) (O Γ : Nat → CTy) (loc : Nat → MemOp) (stk : Nat)

theorem setVar_freshS {N : List Nat} (v : Bool) (t : ITy) (x : Nat) (rhs : G) (h : FreshS N rhs) : FreshS N (setVar loc stk v t x rhs) := by
  unfold setVar
  cases v
  · rw [if_neg (by decide)]; exact freshS_right (fresh_inss _) (freshS_tmp h)
  · rw [if_pos rfl]; exact freshS_left h (fresh_inss _)

theorem setVar_fresh (v : Bool) (t : ITy) (x : Nat) (rhs : G) (h : Fresh rhs) : Fresh (setVar loc stk v t x rhs) := by
  unfold setVar
  cases v
  · rw [if_neg (by decide)]; exact fresh_seq (fresh_inss _) (fresh_tmp h)
  · rw [if_pos rfl]; exact fresh_seq h (fresh_inss _)

theorem void_fresh (e : Expr) : Fresh (compileVoid hs opt Γ loc stk e) := gen_fresh _ _ _ _ _ _ _

theorem rmw_fresh (cont brk : Nat) (hne : cont ≠ brk) (h : Nat → Nat) (post : Bool) (g : Nat) (op : BinOp) (e : Expr) :
    FreshS [cont, brk] (rmwCode hs opt O Γ loc stk cont brk h post g op e) := by
  unfold rmwCode
  refine freshS_right (setVar_fresh _ _ _ _ _ _ (fresh_inss _)) (freshS_right (void_fresh _ _ _ _ _ _) (freshS_right (setVar_fresh _ _ _ _ _ _ ?_) ?_))
  · exact fresh_seq (expr_fresh _ _ _ _ _ _) (fresh_lines _ rfl)
  refine freshS_with (S := fun i => [.begin i]) (fun i => ?_) (fun i l hl => by simp at hl; subst hl; rfl)
  have f1 : FreshX i [] [.begin i] (lines [.lab (.begin i)]) := freshX_lines _ (by simp [labs, lab?]) (by simp [labs, lab?])
  have f2 : FreshX i [] [] (setVar loc stk false (ity (O g)) (h 3) (compileExpr hs opt Γ loc stk (.cast (O g) (.bin op (.var (h 2)) (.var (h 1)))))) :=
    (setVar_fresh _ _ _ _ _ _ (expr_fresh _ _ _ _ _ _)).s.x i
  have f3 : FreshX i [cont] [] (lines [.lab (.name cont)]) := (freshS_name cont).x i
  have f4 : FreshX i [] [] (casCode hs opt Γ loc stk (ity (O g)) (h 0) (h 2) (h 3)) := by
    refine Fresh.s ?_ |>.x i
    exact fresh_seq (expr_fresh _ _ _ _ _ _) (fresh_seq (fresh_tmp (fresh_seq (fresh_inss _) (fresh_tmp (expr_fresh _ _ _ _ _ _)))) (fresh_lines _ rfl))
  have f5 : FreshX i [brk] [] (lines ((if opt then [] else [.ins (.alu .xor 1 (.imm 1) (.reg .ax))]) ++
      [.ins (.test 1 (.reg .ax) (.reg .ax)), .jcc (if opt then .e else .ne) (.begin i), .lab (.name brk)])) := by
    cases opt
    · exact freshX_lines _ (nodup1 _) (by simp [labs, lab?])
    · exact freshX_lines _ (nodup1 _) (by simp [labs, lab?])
  have f6 : FreshX i [] [] (compileExpr hs opt Γ loc stk (.var (h (if post then 2 else 3)))) := (expr_fresh _ _ _ _ _ _).s.x i
  have := freshX_seq f1 (freshX_seq f2 (freshX_seq f3 (freshX_seq f4 (freshX_seq f5 f6 (by simp) (by simp) (by simp) (by simp)) (by simp) (by simp) (by simp) (by simp))
    (by simp) (by simp) (by simp) (by simpa using hne)) (by simp) (by simp) (by simp) (by simp)) (by simp [lnum]) (by simp) (by simp) (by simp)
  simpa using this

/-- The names that a statement defines. -/
def atomDefs (n k : Nat) : Atomic.Stmt → List Nat
  | .rmw .. => [n + 1 + 2 * k, n + 2 + 2 * k]
  | _ => []

theorem atomic_fresh (n k : Nat) (h : Nat → Nat) (s : Atomic.Stmt) : FreshS (atomDefs n k s) (atomicStmt hs opt O Γ loc stk n k h s) := by
  cases s with
  | run e => exact (void_fresh _ _ _ _ _ _).s
  | branch e j => exact (cond_fresh _ _ _ _ _ _ _ _).s
  | load r g => exact (fresh_lines _ rfl).s
  | store g e =>
    exact (fresh_seq (void_fresh _ _ _ _ _ _) (fresh_seq (fresh_inss _) (fresh_seq (fresh_tmp (expr_fresh _ _ _ _ _ _)) (fresh_lines _ rfl)))).s
  | rmw r post g op e =>
    cases r with
    | none => exact rmw_fresh _ _ _ _ _ _ _ _ (by omega) _ _ _ _ _
    | some r => exact setVar_freshS _ _ _ _ _ _ (freshS_left (rmw_fresh _ _ _ _ _ _ _ _ (by omega) _ _ _ _ _) (fresh_inss _))

/-- The names that the statements from number `k` on define. -/
def atomNames (n : Nat) : Nat → List Atomic.Stmt → List Nat
  | k, [] => [k]
  | k, s :: l => [k] ++ (atomDefs n k s ++ atomNames n (k + 1) l)

theorem atomNames_mem (n : Nat) : ∀ (l : List Atomic.Stmt) (k u : Nat), u ∈ atomNames n k l → (k ≤ u ∧ u ≤ k + l.length) ∨ n + 1 + 2 * k ≤ u
  | [], k, u, h => by simp [atomNames] at h; simp; omega
  | s :: l, k, u, h => by
    simp only [atomNames, List.mem_append, List.mem_singleton, List.length_cons] at h ⊢
    rcases h with h | h | h
    · omega
    · cases s <;> simp [atomDefs] at h
      omega
    · have := atomNames_mem n l (k + 1) u h; omega

theorem atomicFrom_fresh (n : Nat) (hid : Nat → Nat → Nat) : ∀ (l : List Atomic.Stmt) (k : Nat), k + l.length ≤ n →
    FreshS (atomNames n k l) (atomicFrom hs opt O Γ loc stk n hid k l)
  | [], k, _ => freshS_name k
  | s :: l, k, h => by
    rw [List.length_cons] at h
    have hd : ∀ x ∈ atomDefs n k s, n + 1 + 2 * k ≤ x ∧ x ≤ n + 2 + 2 * k := by
      intro x hx
      cases s <;> simp [atomDefs] at hx
      omega
    refine freshS_seq (freshS_name k) (freshS_seq (atomic_fresh hs opt O Γ loc stk n k (hid k) s) (atomicFrom_fresh n hid l (k + 1) (by omega)) ?_) ?_
    · intro x hx hy
      have := hd x hx
      have := atomNames_mem n l (k + 1) x hy
      omega
    · intro x hx hy
      rcases List.mem_singleton.1 hx with rfl
      rcases List.mem_append.1 hy with hy | hy
      · have := hd x hy; omega
      · have := atomNames_mem n l (x + 1) x hy; omega

theorem atomicCode_unique (hid : Nat → Nat → Nat) (p : List Atomic.Stmt) (c : Nat) : UniqueLabels (atomicCode hs opt O Γ loc stk hid p c).1.code :=
  unique_of_nodup _ (atomicFrom_fresh hs opt O Γ loc stk p.length hid p 0 (by omega) c).2.1

/-- Where the statements are. -/
theorem atomicFrom_at (n : Nat) (hid : Nat → Nat → Nat) (P : List Line) : ∀ (l : List Atomic.Stmt) (k c pc : Nat),
    CodeAt P pc (atomicFrom hs opt O Γ loc stk n hid k l c).1.code →
    P[pc + (atomicFrom hs opt O Γ loc stk n hid k l c).1.code.length - 1]? = some (.lab (.name (k + l.length))) ∧
    P[pc]? = some (.lab (.name k)) ∧ 0 < (atomicFrom hs opt O Γ loc stk n hid k l c).1.code.length ∧
    ∀ j s, l[j]? = some s → ∃ q c', P[q]? = some (.lab (.name (k + j))) ∧ CodeAt P (q + 1) (atomicStmt hs opt O Γ loc stk n (k + j) (hid (k + j)) s c').1.code ∧
      (atomicStmt hs opt O Γ loc stk n (k + j) (hid (k + j)) s c').1.st ≤ (atomicFrom hs opt O Γ loc stk n hid k l c).1.st ∧
      P[q + 1 + (atomicStmt hs opt O Γ loc stk n (k + j) (hid (k + j)) s c').1.code.length]? = some (.lab (.name (k + j + 1)))
  | [], k, c, pc, h => by
    have h' : P[pc]? = some (.lab (.name k)) := by
      have := h 0 (by show 0 < 1; omega)
      exact this
    exact ⟨h', h', by show 0 < 1; omega, fun j s hj => by simp at hj⟩
  | s :: l, k, c, pc, h => by
    unfold atomicFrom at h
    simp only [codeAt_seq] at h
    obtain ⟨h1, h2, h3⟩ := h
    have h1' : P[pc]? = some (.lab (.name k)) := by
      have := h1 0 (by show 0 < 1; omega)
      exact this
    obtain ⟨i1, i2, i3, i4⟩ := atomicFrom_at n hid P l (k + 1) _ _ h3
    have hst : ∀ m, m ≤ (atomicFrom hs opt O Γ loc stk n hid (k + 1) l (atomicStmt hs opt O Γ loc stk n k (hid k) s c).2).1.st ∨
        m ≤ (atomicStmt hs opt O Γ loc stk n k (hid k) s c).1.st → m ≤ (atomicFrom hs opt O Γ loc stk n hid k (s :: l) c).1.st := by
      intro m hm
      have := Nat.le_refl (atomicFrom hs opt O Γ loc stk n hid k (s :: l) c).1.st
      conv at this => lhs; unfold atomicFrom
      rw [st_seq, st_seq] at this
      rcases hm with hm | hm
      · exact Nat.le_trans hm this.2.2
      · exact Nat.le_trans hm this.2.1
    refine ⟨?_, h1', ?_, ?_⟩
    · unfold atomicFrom
      simp only [len_seq]
      rw [List.length_cons, show k + (l.length + 1) = k + 1 + l.length by omega, ← i1]
      congr 1
      have : ((lines [Line.lab (.name k)] c).1.code).length = 1 := rfl
      show _ = _ + _ - 1
      have e : (lines [Line.lab (.name k)] c).2 = c := rfl
      rw [this] at *
      simp only [e] at *
      omega
    · unfold atomicFrom
      simp only [len_seq]
      show 0 < 1 + _
      omega
    · intro j t hj
      cases j with
      | zero =>
        injection hj with hj
        subst hj
        exact ⟨pc, c, h1', h2, hst _ (Or.inr (Nat.le_refl _)), i2⟩
      | succ j =>
        obtain ⟨q, c', j1, j2, j3, j4⟩ := i4 j t hj
        rw [show k + (j + 1) = k + 1 + j by omega]
        exact ⟨q, c', j1, j2, hst _ (Or.inl j3), j4⟩

end
end Slimcc
