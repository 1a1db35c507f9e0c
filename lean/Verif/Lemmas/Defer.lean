import Verif.Model.Defer
/-!
The chain of the parser is what is pending, and the code runs it.
-/
set_option autoImplicit false
namespace Slimcc.DfrL
open Slimcc.Spec Slimcc.Dfr

/-! ### Chains -/

/-- All addresses on the chain are below `k`. -/
def Fresh : Chain → Nat → Prop
  | .nil, _ => True
  | .cons id _ next, k => id < k ∧ Fresh next k

theorem Fresh.mono : ∀ {E : Chain} {k m : Nat}, Fresh E k → k ≤ m → Fresh E m
  | .nil, _, _, _, _ => trivial
  | .cons _ _ _, _, _, h, hm => ⟨Nat.lt_of_lt_of_le h.1 hm, Fresh.mono h.2 hm⟩

theorem Fresh.head {E : Chain} {k : Nat} (h : Fresh E k) : some k ≠ E.head := by
  cases E with
  | nil => intro h; cases h
  | cons id n next => intro h'; cases h'; exact Nat.lt_irrefl _ h.1

/-- The node is what the parser made of the deferred statement. -/
def Body (d : DStmt) (n : N) : Prop :=
  ∃ ctx p q, Fresh p.defr p.nid ∧ secondary (stmt d ctx) (isBlock d) p = some (n, q)

theorem body_act (n : Nat) : Body (.act n) (.act n) :=
  ⟨[], ⟨.nil, 0, 0, [], []⟩, ⟨.nil, 0, 0, [], []⟩, trivial, rfl⟩

/-- The chain `E` is the deferred statements `D` (the latest first) on top of `E'`. -/
inductive Over : Chain → List DStmt → Chain → Prop
  | nil {E : Chain} : Over E [] E
  | cons {id : Nat} {n : N} {next E' : Chain} {d : DStmt} {D : List DStmt} : Body d n → some id ≠ E'.head → Over next D E' →
      Over (.cons id n next) (d :: D) E'

theorem Over.fresh {E E' : Chain} {D : List DStmt} (h : Over E D E') {k : Nat} (hf : Fresh E k) : Fresh E' k := by
  induction h with
  | nil => exact hf
  | cons _ _ _ ih => exact ih hf.2

theorem Over.head_eq {E E' : Chain} {D : List DStmt} (h : Over E D E') (he : E.head = E'.head) : D = [] ∧ E = E' := by
  cases h with
  | nil => exact ⟨rfl, rfl⟩
  | cons _ hne _ => exact absurd he hne

theorem newDefr_over {p : PSt} {E : Chain} {d : DStmt} {D : List DStmt} {n : N} (h : Over p.defr D E) (hf : Fresh p.defr p.nid) (hb : Body d n) :
    Over (newDefr n p).defr (d :: D) E := .cons hb (h.fresh hf).head h

theorem newDefr_fresh {p : PSt} (n : N) (hf : Fresh p.defr p.nid) : Fresh (newDefr n p).defr (newDefr n p).nid :=
  ⟨Nat.lt_succ_self _, hf.mono (Nat.le_succ _)⟩

theorem newDefrs_fresh (l : List Nat) : ∀ {p : PSt}, Fresh p.defr p.nid →
    Fresh (newDefrs l p).defr (newDefrs l p).nid ∧ p.nid ≤ (newDefrs l p).nid := by
  induction l with
  | nil => intro p h; exact ⟨h, Nat.le_refl _⟩
  | cons n l ih =>
    intro p h
    obtain ⟨h1, h2⟩ := ih (newDefr_fresh (.act n) h)
    exact ⟨h1, Nat.le_trans (Nat.le_succ _) h2⟩

theorem newDefrs_over (l : List Nat) : ∀ {p : PSt} {E : Chain} {D : List DStmt}, Over p.defr D E → Fresh p.defr p.nid →
    Over (newDefrs l p).defr (headerDefers l ++ D) E := by
  induction l with
  | nil => intro p E D h _; exact h
  | cons n l ih =>
    intro p E D h hf
    have := ih (newDefr_over h hf (body_act n)) (newDefr_fresh _ hf)
    simpa [newDefrs, headerDefers] using this

/-! ### What the parser does to the chain -/

theorem pendingAfter_append (s : DStmt) : ∀ (D F : List DStmt), pendingAfter s (D ++ F) = pendingAfter s D ++ F := by
  induction s with
  | seq a b iha ihb => intro D F; simp only [pendingAfter, iha, ihb]
  | _ => intro D F; rfl

structure Static (s : DStmt) (p q : PSt) : Prop where
  nid : p.nid ≤ q.nid
  fresh : Fresh q.defr q.nid
  over : ∀ D E, Over p.defr D E → Over q.defr (pendingAfter s D) E

theorem leaveCompound_defr (e : Chain) (n : N) (p : PSt) : (leaveCompound e n p).2 = { p with defr := e } := by
  unfold leaveCompound; split <;> rfl

theorem leaveBlockScope_defr {d : Chain} {n : N} {p : PSt} {D : List DStmt} (h : Over p.defr D d) :
    (leaveBlockScope d n p).2.defr = d ∧ (leaveBlockScope d n p).2.nid = p.nid := by
  unfold leaveBlockScope
  split
  · split <;> exact ⟨rfl, rfl⟩
  · split
    · rename_i hc
      simp only [Bool.and_eq_true, decide_eq_true_eq] at hc
      exact ⟨(h.head_eq hc.1).2, rfl⟩
    · exact ⟨rfl, rfl⟩

theorem secondary_static {s : DStmt} {ctx : List JCtx} (ih : ∀ {p : PSt} {n : N} {q : PSt}, stmt s ctx p = some (n, q) → Fresh p.defr p.nid → Static s p q)
    {p : PSt} {n : N} {q : PSt} (h : secondary (stmt s ctx) (isBlock s) p = some (n, q)) (hf : Fresh p.defr p.nid) :
    q.defr = p.defr ∧ p.nid ≤ q.nid := by
  unfold secondary at h
  cases hb : isBlock s with
  | true =>
    rw [if_pos hb] at h
    cases s with
    | block b =>
      have hs := ih h hf
      simp only [stmt] at h
      split at h
      · cases h
      · rename_i n' q' _
        refine ⟨?_, hs.nid⟩
        rw [Option.some.injEq] at h
        rw [show q = (leaveCompound p.defr n' q').2 by rw [h], leaveCompound_defr]
    | _ => cases hb
  | false =>
    rw [if_neg (by simp [hb])] at h
    split at h
    · cases h
    · rename_i n' q' hs'
      rw [Option.some.injEq] at h
      obtain rfl : q = (leaveBlockScope p.defr n' q').2 := by rw [h]
      have hs := ih hs' hf
      have := leaveBlockScope_defr (n := n') (hs.over [] p.defr .nil)
      exact ⟨this.1, by rw [this.2]; exact hs.nid⟩

theorem stmt_static (s : DStmt) : ∀ (ctx : List JCtx) {p : PSt} {n : N} {q : PSt}, stmt s ctx p = some (n, q) → Fresh p.defr p.nid → Static s p q := by
  induction s with
  | skip => intro ctx p n q h hf; cases h; exact ⟨Nat.le_refl _, hf, fun _ _ h => h⟩
  | act m => intro ctx p n q h hf; cases h; exact ⟨Nat.le_refl _, hf, fun _ _ h => h⟩
  | seq a b iha ihb =>
    intro ctx p n q h hf
    simp only [stmt] at h
    split at h
    · cases h
    · rename_i na p1 ha
      split at h
      · cases h
      · rename_i nb p2 hb
        cases h
        have h1 := iha ctx ha hf
        have h2 := ihb ctx hb h1.fresh
        exact ⟨Nat.le_trans h1.nid h2.nid, h2.fresh, fun D E hO => h2.over _ E (h1.over D E hO)⟩
  | defer b ih =>
    intro ctx p n q h hf
    simp only [stmt] at h
    split at h
    · cases h
    · rename_i nb p1 hb
      cases h
      obtain ⟨hd, hn⟩ := secondary_static (ih ctx) hb hf
      have hf1 : Fresh p1.defr p1.nid := by rw [hd]; exact hf.mono hn
      exact ⟨Nat.le_trans hn (Nat.le_succ _), newDefr_fresh _ hf1,
        fun D E hO => newDefr_over (by rw [hd]; exact hO) hf1 ⟨ctx, p, p1, hf, hb⟩⟩
  | cleanup m =>
    intro ctx p n q h hf; cases h
    exact ⟨Nat.le_succ _, newDefr_fresh _ hf, fun D E hO => newDefr_over hO hf (body_act m)⟩
  | block b ih =>
    intro ctx p n q h hf
    simp only [stmt] at h
    split at h
    · cases h
    · rename_i nb p1 hb
      rw [Option.some.injEq] at h
      obtain rfl : q = (leaveCompound p.defr nb p1).2 := by rw [h]
      have h1 := ih ctx hb hf
      rw [leaveCompound_defr]
      exact ⟨h1.nid, hf.mono h1.nid, fun _ _ h => h⟩
  | ite pre c a b iha ihb =>
    intro ctx p n q h hf
    simp only [stmt] at h
    split at h
    · cases h
    · rename_i na p1 ha
      split at h
      · cases h
      · rename_i nb p2 hb
        rw [Option.some.injEq] at h
        obtain rfl : q = (leaveBlockScope p.defr (.ite c na nb) p2).2 := by rw [h]
        obtain ⟨hf0, hn0⟩ := newDefrs_fresh pre hf
        obtain ⟨hd1, hn1⟩ := secondary_static (iha ctx) ha hf0
        have hf1 : Fresh p1.defr p1.nid := by rw [hd1]; exact hf0.mono hn1
        obtain ⟨hd2, hn2⟩ := secondary_static (ihb ctx) hb hf1
        have hO : Over p2.defr (headerDefers pre ++ []) p.defr := by rw [hd2, hd1]; exact newDefrs_over pre .nil hf
        obtain ⟨h1, h2⟩ := leaveBlockScope_defr (n := .ite c na nb) hO
        have hn : p.nid ≤ p2.nid := by omega
        exact ⟨by rw [h2]; exact hn, by rw [h1, h2]; exact hf.mono hn, fun D E h => by rw [h1]; exact h⟩
  | loop init pre c inc body ih =>
    intro ctx p n q h hf
    simp only [stmt] at h
    split at h
    · cases h
    · rename_i nb p1 hb
      rw [Option.some.injEq] at h
      obtain rfl : q = (leaveBlockScope p.defr (N.for_ c inc nb (newDefrs pre (newDefrs init p)).nlab ((newDefrs pre (newDefrs init p)).nlab + 1) (newDefrs pre (newDefrs init p)).defr (newDefrs init p).defr) p1).2 := by rw [h]
      obtain ⟨hf0, hn0⟩ := newDefrs_fresh init hf
      obtain ⟨hf1, hn1⟩ := newDefrs_fresh pre hf0
      obtain ⟨hd2, hn2⟩ := secondary_static (ih _) hb hf1
      have hO : Over p1.defr (headerDefers pre ++ (headerDefers init ++ [])) p.defr := by
        rw [hd2]; exact newDefrs_over pre (newDefrs_over init .nil hf) hf0
      obtain ⟨h1, h2⟩ := leaveBlockScope_defr (n := N.for_ c inc nb (newDefrs pre (newDefrs init p)).nlab ((newDefrs pre (newDefrs init p)).nlab + 1) (newDefrs pre (newDefrs init p)).defr (newDefrs init p).defr) hO
      have hn2' : (newDefrs pre (newDefrs init p)).nid ≤ p1.nid := hn2
      have hn : p.nid ≤ p1.nid := by omega
      exact ⟨by rw [h2]; exact hn, by rw [h1, h2]; exact hf.mono hn, fun D E h => by rw [h1]; exact h⟩
  | doWhile body c ih =>
    intro ctx p n q h hf
    simp only [stmt] at h
    split at h
    · cases h
    · rename_i nb p1 hb
      cases h
      obtain ⟨hd, hn⟩ := secondary_static (ih _) hb hf
      have hn' : p.nid ≤ q.nid := hn
      exact ⟨hn', by rw [hd]; exact hf.mono hn', fun D E h => by rw [hd]; exact h⟩
  | brk k =>
    intro ctx p n q h hf
    simp only [stmt, jumpTo] at h
    split at h
    · cases h
    · simp only [Bool.false_eq_true, if_false] at h; cases h; exact ⟨Nat.le_refl _, hf, fun _ _ h => h⟩
  | cont k =>
    intro ctx p n q h hf
    simp only [stmt, jumpTo] at h
    split at h
    · cases h
    · simp only [if_true] at h
      split at h
      · cases h
      · cases h; exact ⟨Nat.le_refl _, hf, fun _ _ h => h⟩
  | ret => intro ctx p n q h hf; cases h; exact ⟨Nat.le_refl _, hf, fun _ _ h => h⟩
  | label l => intro ctx p n q h hf; cases h; exact ⟨Nat.le_refl _, hf, fun _ _ h => h⟩
  | goto l => intro ctx p n q h hf; cases h; exact ⟨Nat.le_refl _, hf, fun _ _ h => h⟩
  | sw body ih =>
    intro ctx p n q h hf
    simp only [stmt] at h
    split at h
    · cases h
    · rename_i nb p1 hb
      cases h
      obtain ⟨hd, hn⟩ := secondary_static (ih _) hb hf
      have hn' : p.nid ≤ q.nid := hn
      exact ⟨hn', by rw [hd]; exact hf.mono hn', fun D E h => by rw [hd]; exact h⟩
  | case =>
    intro ctx p n q h hf
    simp only [stmt] at h
    split at h
    · cases h; exact ⟨Nat.le_refl _, hf, fun _ _ h => h⟩
    · cases h

theorem secondary_keeps {s : DStmt} {ctx : List JCtx} {p : PSt} {n : N} {q : PSt} (h : secondary (stmt s ctx) (isBlock s) p = some (n, q))
    (hf : Fresh p.defr p.nid) : q.defr = p.defr ∧ p.nid ≤ q.nid := secondary_static (stmt_static s ctx) h hf

theorem normal_pending {T : Task} {t : List DEv} {x : DExit} {D' : List DStmt} (h : DRuns T t x D') :
    ∀ (s : DStmt) (D : List DStmt), T = .st s D → x = .normal → D' = pendingAfter s D := by
  induction h with
  | seq _ _ iha ihb =>
    intro s D hT hx
    cases hT
    rw [ihb _ _ rfl hx, iha _ _ rfl rfl]; rfl
  | seqOut _ hne _ => intro s D hT hx; exact absurd hx hne
  | _ => intro s D hT hx; cases hT <;> first | rfl | cases hx

theorem leaveCompound_node (e : Chain) (n : N) (p : PSt) : ∃ ds, (leaveCompound e n p).1 = .block n ds e := by
  unfold leaveCompound; split <;> exact ⟨_, rfl⟩

theorem leaveBlockScope_node (d : Chain) (n : N) (p : PSt) : (leaveBlockScope d n p).1 = n ∨ ∃ ds, (leaveBlockScope d n p).1 = .block n ds d := by
  unfold leaveBlockScope
  split
  · split
    · exact Or.inr ⟨_, rfl⟩
    · exact Or.inl rfl
  · split
    · exact Or.inl rfl
    · exact Or.inr ⟨_, rfl⟩

/-- A statement whose last node is a jump does not end normally. -/
theorem last_jump {T : Task} {t : List DEv} {x : DExit} {D' : List DStmt} (h : DRuns T t x D') :
    ∀ (s : DStmt) (D : List DStmt), T = .st s D → ∀ (ctx : List JCtx) (p : PSt) (n : N) (q : PSt), stmt s ctx p = some (n, q) →
      isJump? (lastNode n) = true ∨ isJump? (firstNode n) = true → x ≠ .normal := by
  induction h with
  | @seq a b D D1 D2 t1 t2 x _ _ iha ihb =>
    intro s D hT ctx p n q hs hj
    cases hT
    simp only [stmt] at hs
    split at hs
    · cases hs
    · rename_i na p1 ha
      split at hs
      · cases hs
      · rename_i nb p2 hb
        cases hs
        have ha' := iha _ _ rfl ctx p na p1 ha
        have hb' := ihb _ _ rfl ctx p1 nb q hb
        rcases hj with hj | hj
        · simp only [lastNode] at hj
          cases hl : lastNode nb with
          | some m => rw [hl] at hj hb'; exact hb' (Or.inl hj)
          | none => rw [hl] at hj; exact absurd rfl (ha' (Or.inl hj))
        · simp only [firstNode] at hj
          cases hl : firstNode na with
          | some m => rw [hl] at hj ha'; exact absurd rfl (ha' (Or.inr hj))
          | none => rw [hl] at hj; exact hb' (Or.inr hj)
  | seqOut _ hne _ => intro s D hT ctx p n q _ _; exact hne
  | brk => intro s D hT ctx p n q _ _ h; cases h
  | cont => intro s D hT ctx p n q _ _ h; cases h
  | ret => intro s D hT ctx p n q _ _ h; cases h
  | skip => intro s D hT ctx p n q hs hj; cases hT; cases hs; rcases hj with h | h <;> cases h
  | act => intro s D hT ctx p n q hs hj; cases hT; cases hs; rcases hj with h | h <;> cases h
  | label => intro s D hT ctx p n q hs hj; cases hT; cases hs; rcases hj with h | h <;> cases h
  | cleanup => intro s D hT ctx p n q hs hj; cases hT; cases hs; rcases hj with h | h <;> cases h
  | defer =>
    intro s D hT ctx p n q hs hj; cases hT
    simp only [stmt] at hs
    split at hs
    · cases hs
    · cases hs; rcases hj with h | h <;> cases h
  | block =>
    intro s D hT ctx p n q hs hj; cases hT
    simp only [stmt] at hs
    split at hs
    · cases hs
    · rename_i nb p1 hb
      rw [Option.some.injEq] at hs
      obtain ⟨ds, hd⟩ := leaveCompound_node p.defr nb p1
      rw [hs] at hd
      simp only at hd
      subst hd
      rcases hj with h | h <;> cases h
  | @ite pre c a b D v t t' x _ _ _ _ =>
    intro s D hT ctx p n q hs hj; cases hT
    simp only [stmt] at hs
    split at hs
    · cases hs
    · split at hs
      · cases hs
      · rw [Option.some.injEq] at hs
        rename_i na _ _ _ nb p2 _
        rcases leaveBlockScope_node p.defr (.ite c na nb) p2 with hd | ⟨ds, hd⟩ <;>
          (rw [hs] at hd; simp only at hd; subst hd; rcases hj with h | h <;> cases h)
  | loop =>
    intro s D hT ctx p n q hs hj; cases hT
    simp only [stmt] at hs
    split at hs
    · cases hs
    · rw [Option.some.injEq] at hs
      rename_i nb p2 _
      rcases leaveBlockScope_node p.defr _ p2 with hd | ⟨ds, hd⟩ <;>
        (rw [hs] at hd; simp only at hd; subst hd; rcases hj with h | h <;> cases h)
  | doWhile =>
    intro s D hT ctx p n q hs hj; cases hT
    simp only [stmt] at hs
    split at hs
    · cases hs
    · cases hs; rcases hj with h | h <;> cases h
  | _ => intro s D hT; cases hT

end Slimcc.DfrL
