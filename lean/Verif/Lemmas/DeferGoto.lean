import Verif.Lemmas.DeferAsm
/-!
Jumps to labels: which are accepted, and what they run.
-/
set_option autoImplicit false
namespace Slimcc.DfrL
open Slimcc.Spec Slimcc.Dfr

/-! ### Lists of pending statements that share a number share all below it -/

/-- What is pending right after each declaration of a header. -/
def madeH : Nat → List Nat → Pend → List Pend
  | _, [], _ => []
  | k, n :: l, D => ((k, .act n) :: D) :: madeH (k + 1) l ((k, .act n) :: D)

/-- What is pending right after each deferred statement in `s`. -/
def made : DStmt → Nat → Pend → List Pend
  | .seq a b, k, D => made a k D ++ made b (k + defersIn a) (pendAfter a k D)
  | .defer b, k, D => made b k D ++ [(k + defersIn b, b) :: D]
  | .cleanup n, k, D => [(k, .act n) :: D]
  | .block b, k, D => made b k D
  | .ite pre _ a b, k, D => madeH k pre D ++ (made a (k + pre.length) (headerPend k pre D) ++ made b (k + pre.length + defersIn a) (headerPend k pre D))
  | .loop init pre _ _ b, k, D => madeH k init D ++ (madeH (k + init.length) pre (headerPend k init D) ++
      made b (k + init.length + pre.length) (headerPend (k + init.length) pre (headerPend k init D)))
  | .doWhile b _, k, D => made b k D
  | .sw b, k, D => made b k D
  | _, _, _ => []

/-- The heads have the numbers from `k` on. -/
inductive Numbered : Nat → List Pend → Nat → Prop
  | nil {k : Nat} : Numbered k [] k
  | cons {k j : Nat} {d : DStmt} {D : Pend} {l : List Pend} : Numbered (k + 1) l j → Numbered k (((k, d) :: D) :: l) j

theorem Numbered.append {a b : List Pend} {i j k : Nat} (h1 : Numbered i a j) (h2 : Numbered j b k) : Numbered i (a ++ b) k := by
  induction h1 with
  | nil => exact h2
  | cons _ ih => exact .cons (ih h2)

theorem Numbered.le {l : List Pend} {i j : Nat} (h : Numbered i l j) : ∀ {k : Nat} {d : DStmt} {D : Pend}, (k, d) :: D ∈ l → i ≤ k := by
  induction h with
  | nil => intro k d D h; cases h
  | cons _ ih =>
    intro k d D h
    rcases List.mem_cons.mp h with h | h
    · cases h; exact Nat.le_refl _
    · have := ih h; omega

theorem Numbered.unique {l : List Pend} {i j : Nat} (h : Numbered i l j) : ∀ {k : Nat} {d d' : DStmt} {D D' : Pend}, (k, d) :: D ∈ l → (k, d') :: D' ∈ l →
    (k, d) :: D = (k, d') :: D' := by
  induction h with
  | nil => intro k d d' D D' h; cases h
  | cons hn ih =>
    intro k d d' D D' h1 h2
    rcases List.mem_cons.mp h1 with h1 | h1
    · rcases List.mem_cons.mp h2 with h2 | h2
      · rw [h1, h2]
      · cases h1; have := hn.le h2; omega
    · rcases List.mem_cons.mp h2 with h2 | h2
      · cases h2; have := hn.le h1; omega
      · exact ih h1 h2

theorem madeH_numbered (l : List Nat) : ∀ (k : Nat) (D : Pend), Numbered k (madeH k l D) (k + l.length) := by
  induction l with
  | nil => intro k D; exact .nil
  | cons n l ih =>
    intro k D
    have := ih (k + 1) ((k, .act n) :: D)
    rw [Nat.add_assoc, Nat.add_comm 1] at this
    exact .cons this

theorem made_numbered (s : DStmt) : ∀ (k : Nat) (D : Pend), Numbered k (made s k D) (k + defersIn s) := by
  induction s with
  | seq a b iha ihb =>
    intro k D
    have := (iha k D).append (ihb (k + defersIn a) (pendAfter a k D))
    rwa [Nat.add_assoc] at this
  | defer b ih => intro k D; exact (ih k D).append (.cons .nil)
  | cleanup n => intro k D; exact .cons .nil
  | block b ih => exact ih
  | ite pre c a b iha ihb =>
    intro k D
    have := (madeH_numbered pre k D).append ((iha (k + pre.length) (headerPend k pre D)).append (ihb (k + pre.length + defersIn a) (headerPend k pre D)))
    simpa [made, defersIn, Nat.add_assoc] using this
  | loop init pre c inc b ih =>
    intro k D
    have := (madeH_numbered init k D).append ((madeH_numbered pre (k + init.length) (headerPend k init D)).append
      (ih (k + init.length + pre.length) (headerPend (k + init.length) pre (headerPend k init D))))
    simpa [made, defersIn, Nat.add_assoc] using this
  | doWhile b c ih => exact ih
  | sw b ih => exact ih
  | _ => intro k D; exact .nil

/-- All that is pending was made. -/
def Made (M : List Pend) (D : Pend) : Prop := ∀ (A : Pend) (x : Nat × DStmt) (B : Pend), D = A ++ x :: B → x :: B ∈ M

theorem Made.nil {M : List Pend} : Made M [] := by
  intro A x B h
  simp at h

theorem Made.cons {M : List Pend} {x : Nat × DStmt} {D : Pend} (h : Made M D) (hx : x :: D ∈ M) : Made M (x :: D) := by
  intro A y B he
  cases A with
  | nil => simp at he; obtain ⟨rfl, rfl⟩ := he; exact hx
  | cons a A => simp at he; exact h A y B he.2

theorem headerPend_made (l : List Nat) : ∀ {k : Nat} {D : Pend} {M : List Pend}, Made M D → (∀ B, B ∈ madeH k l D → B ∈ M) → Made M (headerPend k l D) := by
  induction l with
  | nil => intro k D M h _; exact h
  | cons n l ih =>
    intro k D M h hM
    exact ih (h.cons (hM _ (by simp [madeH]))) (fun B hB => hM B (by simp [madeH, hB]))

theorem pendAfter_made (s : DStmt) : ∀ {k : Nat} {D : Pend} {M : List Pend}, Made M D → (∀ B, B ∈ made s k D → B ∈ M) → Made M (pendAfter s k D) := by
  induction s with
  | seq a b iha ihb =>
    intro k D M h hM
    exact ihb (iha h (fun B hB => hM B (by simp [made, hB]))) (fun B hB => hM B (by simp [made, hB]))
  | defer b _ => intro k D M h hM; exact h.cons (hM _ (by simp [made]))
  | cleanup n => intro k D M h hM; exact h.cons (hM _ (by simp [made]))
  | _ => intro k D M h hM; exact h

theorem stands_made {x s : DStmt} {k : Nat} {D Q : Pend} (h : Stands x s k D Q) : ∀ {M : List Pend}, Made M D → (∀ B, B ∈ made s k D → B ∈ M) → Made M Q := by
  induction h with
  | here => intro M h _; exact h
  | left _ ih => intro M h hM; exact ih h (fun B hB => hM B (by simp [made, hB]))
  | right _ ih => intro M h hM; exact ih (pendAfter_made _ h (fun B hB => hM B (by simp [made, hB]))) (fun B hB => hM B (by simp [made, hB]))
  | block _ ih => intro M h hM; exact ih h hM
  | deferred _ ih => intro M h hM; exact ih h (fun B hB => hM B (by simp [made, hB]))
  | iteThen _ ih => intro M h hM; exact ih (headerPend_made _ h (fun B hB => hM B (by simp [made, hB]))) (fun B hB => hM B (by simp [made, hB]))
  | iteElse _ ih => intro M h hM; exact ih (headerPend_made _ h (fun B hB => hM B (by simp [made, hB]))) (fun B hB => hM B (by simp [made, hB]))
  | loop _ ih =>
    intro M h hM
    exact ih (headerPend_made _ (headerPend_made _ h (fun B hB => hM B (by simp [made, hB]))) (fun B hB => hM B (by simp [made, hB]))) (fun B hB => hM B (by simp [made, hB]))
  | doWhile _ ih => intro M h hM; exact ih h hM
  | sw _ ih => intro M h hM; exact ih h hM

/-- Two places of the same function: what is below a common deferred statement is the same. -/
theorem stands_share {x y s : DStmt} {Q Q' : Pend} (h : Stands x s 0 [] Q) (h' : Stands y s 0 [] Q') {k : Nat} {d d' : DStmt} {A B A' B' : Pend}
    (hQ : Q = A ++ (k, d) :: B) (hQ' : Q' = A' ++ (k, d') :: B') : (k, d) :: B = (k, d') :: B' :=
  (made_numbered s 0 []).unique (stands_made h Made.nil (fun _ hB => hB) _ _ _ hQ) (stands_made h' Made.nil (fun _ hB => hB) _ _ _ hQ')

/-! ### The chain of the parser is the list of pending statements -/

inductive ChainIs : Chain → Pend → Prop
  | nil : ChainIs .nil []
  | cons {k : Nat} {n : N} {next : Chain} {d : DStmt} {D : Pend} : Body d n → ChainIs next D → ChainIs (.cons k n next) ((k, d) :: D)

theorem newDefrs_is (l : List Nat) : ∀ {p : PSt} {D : Pend}, ChainIs p.defr D →
    ChainIs (newDefrs l p).defr (headerPend p.nid l D) ∧ (newDefrs l p).nid = p.nid + l.length ∧ (newDefrs l p).labels = p.labels ∧ (newDefrs l p).gotos = p.gotos := by
  induction l with
  | nil => intro p D h; exact ⟨h, rfl, rfl, rfl⟩
  | cons n l ih =>
    intro p D h
    have := ih (p := newDefr (.act n) p) (.cons (body_act n) h)
    refine ⟨this.1, ?_, this.2.2⟩
    have h2 := this.2.1
    simp only [newDefrs, List.length_cons]
    rw [h2]; simp only [newDefr]; omega

/-- Jumps and labels. -/
inductive Mark : DStmt → Prop
  | goto {l : Nat} : Mark (.goto l)
  | label {l : Nat} : Mark (.label l)

/-- What the parser has written down for labels and jumps at the places `S`. -/
structure RB (S : DStmt → Pend → Prop) (p q : PSt) : Prop where
  oldG : ∀ e, e ∈ p.gotos → e ∈ q.gotos
  oldL : ∀ e, e ∈ p.labels → e ∈ q.labels
  allG : ∀ e, e ∈ q.gotos → e ∈ p.gotos ∨ ∃ Q, S (.goto e.1) Q ∧ ChainIs e.2 Q
  allL : ∀ e, e ∈ q.labels → e ∈ p.labels ∨ ∃ Q, S (.label e.1) Q ∧ ChainIs e.2.2 Q
  hasG : ∀ l Q, S (.goto l) Q → ∃ E, (l, E) ∈ q.gotos ∧ ChainIs E Q
  hasL : ∀ l Q, S (.label l) Q → ∃ u E, (l, u, E) ∈ q.labels ∧ ChainIs E Q

theorem RB.none {S : DStmt → Pend → Prop} {p q : PSt} (hl : q.labels = p.labels) (hg : q.gotos = p.gotos) (hS : ∀ x Q, Mark x → ¬ S x Q) : RB S p q :=
  ⟨fun e h => by rw [hg]; exact h, fun e h => by rw [hl]; exact h, fun e h => Or.inl (by rw [← hg]; exact h), fun e h => Or.inl (by rw [← hl]; exact h),
    fun l Q h => absurd h (hS _ _ .goto), fun l Q h => absurd h (hS _ _ .label)⟩

theorem RB.iff {S T : DStmt → Pend → Prop} {p q : PSt} (h : RB S p q) (hi : ∀ x Q, Mark x → (T x Q ↔ S x Q)) : RB T p q where
  oldG := h.oldG
  oldL := h.oldL
  allG e he := (h.allG e he).imp id fun ⟨Q, h1, h2⟩ => ⟨Q, (hi _ _ .goto).mpr h1, h2⟩
  allL e he := (h.allL e he).imp id fun ⟨Q, h1, h2⟩ => ⟨Q, (hi _ _ .label).mpr h1, h2⟩
  hasG l Q hT := h.hasG l Q ((hi _ _ .goto).mp hT)
  hasL l Q hT := h.hasL l Q ((hi _ _ .label).mp hT)

/-- The parser states matter by their lists only. -/
theorem RB.same {S : DStmt → Pend → Prop} {p q p' q' : PSt} (h : RB S p q) (h1 : p'.labels = p.labels) (h2 : p'.gotos = p.gotos)
    (h3 : q'.labels = q.labels) (h4 : q'.gotos = q.gotos) : RB S p' q' where
  oldG := by rw [h2, h4]; exact h.oldG
  oldL := by rw [h1, h3]; exact h.oldL
  allG := by rw [h2, h4]; exact h.allG
  allL := by rw [h1, h3]; exact h.allL
  hasG := by rw [h4]; exact h.hasG
  hasL := by rw [h3]; exact h.hasL

theorem RB.seq {S T : DStmt → Pend → Prop} {p q r : PSt} (h1 : RB S p q) (h2 : RB T q r) : RB (fun x Q => S x Q ∨ T x Q) p r where
  oldG e he := h2.oldG e (h1.oldG e he)
  oldL e he := h2.oldL e (h1.oldL e he)
  allG e he := by
    rcases h2.allG e he with h | ⟨Q, hQ, hc⟩
    · exact (h1.allG e h).imp id fun ⟨Q, hQ, hc⟩ => ⟨Q, Or.inl hQ, hc⟩
    · exact Or.inr ⟨Q, Or.inr hQ, hc⟩
  allL e he := by
    rcases h2.allL e he with h | ⟨Q, hQ, hc⟩
    · exact (h1.allL e h).imp id fun ⟨Q, hQ, hc⟩ => ⟨Q, Or.inl hQ, hc⟩
    · exact Or.inr ⟨Q, Or.inr hQ, hc⟩
  hasG l Q hS := by
    rcases hS with hS | hS
    · obtain ⟨E, hE, hc⟩ := h1.hasG l Q hS
      exact ⟨E, h2.oldG _ hE, hc⟩
    · exact h2.hasG l Q hS
  hasL l Q hS := by
    rcases hS with hS | hS
    · obtain ⟨u, E, hE, hc⟩ := h1.hasL l Q hS
      exact ⟨u, E, h2.oldL _ hE, hc⟩
    · exact h2.hasL l Q hS

structure Recs (s : DStmt) (p q : PSt) (D : Pend) : Prop where
  nid : q.nid = p.nid + defersIn s
  chain : ChainIs q.defr (pendAfter s p.nid D)
  rb : RB (fun x Q => Stands x s p.nid D Q) p q

theorem leaveBlockScope_rest (d : Chain) (n : N) (p : PSt) : (leaveBlockScope d n p).2.labels = p.labels ∧ (leaveBlockScope d n p).2.gotos = p.gotos ∧
    (leaveBlockScope d n p).2.nid = p.nid := by
  unfold leaveBlockScope
  split
  · split <;> exact ⟨rfl, rfl, rfl⟩
  · split <;> exact ⟨rfl, rfl, rfl⟩

theorem secondary_recs {s : DStmt} {ctx : List JCtx}
    (ih : ∀ {p : PSt} {n : N} {q : PSt} {D : Pend}, stmt s ctx p = some (n, q) → Fresh p.defr p.nid → ChainIs p.defr D → Recs s p q D)
    {p : PSt} {n : N} {q : PSt} {D : Pend} (h : secondary (stmt s ctx) (isBlock s) p = some (n, q)) (hf : Fresh p.defr p.nid) (hc : ChainIs p.defr D) :
    q.nid = p.nid + defersIn s ∧ q.defr = p.defr ∧ RB (fun x Q => Stands x s p.nid D Q) p q := by
  have hk := secondary_keeps h hf
  unfold secondary at h
  split at h
  · have := ih h hf hc
    exact ⟨this.nid, hk.1, this.rb⟩
  · split at h
    · cases h
    · rename_i n' q' hs
      rw [Option.some.injEq] at h
      have := ih hs hf hc
      obtain ⟨h1, h2, h3⟩ := leaveBlockScope_rest p.defr n' q'
      rw [h] at h1 h2 h3
      simp only at h1 h2 h3
      exact ⟨by rw [h3]; exact this.nid, hk.1, this.rb.same rfl rfl h1 h2⟩

theorem stmt_recs (s : DStmt) : ∀ (ctx : List JCtx) {p : PSt} {n : N} {q : PSt} {D : Pend}, stmt s ctx p = some (n, q) → Fresh p.defr p.nid → ChainIs p.defr D → Recs s p q D := by
  induction s with
  | skip => intro ctx p n q D h hf hc; cases h; exact ⟨rfl, hc, RB.none rfl rfl (fun x Q hx h => by cases h; cases hx)⟩
  | act m => intro ctx p n q D h hf hc; cases h; exact ⟨rfl, hc, RB.none rfl rfl (fun x Q hx h => by cases h; cases hx)⟩
  | cleanup m => intro ctx p n q D h hf hc; cases h; exact ⟨rfl, .cons (body_act m) hc, RB.none rfl rfl (fun x Q hx h => by cases h; cases hx)⟩
  | ret => intro ctx p n q D h hf hc; cases h; exact ⟨rfl, hc, RB.none rfl rfl (fun x Q hx h => by cases h; cases hx)⟩
  | case =>
    intro ctx p n q D h hf hc
    simp only [stmt] at h
    split at h <;> cases h
    exact ⟨rfl, hc, RB.none rfl rfl (fun x Q hx h => by cases h; cases hx)⟩
  | brk k =>
    intro ctx p n q D h hf hc
    obtain ⟨j, hj, rfl⟩ := jumpTo_brk h
    obtain rfl : p = q := by simp [stmt, jumpTo, hj] at h; exact h
    exact ⟨rfl, hc, RB.none rfl rfl (fun x Q hx h => by cases h; cases hx)⟩
  | cont k =>
    intro ctx p n q D h hf hc
    obtain ⟨j, hj, rfl⟩ := jumpTo_cont h
    obtain rfl : p = q := by simp [stmt, jumpTo, hj] at h; exact h.2
    exact ⟨rfl, hc, RB.none rfl rfl (fun x Q hx h => by cases h; cases hx)⟩
  | goto l =>
    intro ctx p n q D h hf hc; cases h
    refine ⟨rfl, hc, fun e he => List.mem_cons_of_mem _ he, fun e he => he, fun e he => ?_, fun e he => Or.inl he, fun k Q hS => ?_, fun k Q hS => by cases hS⟩
    · rcases List.mem_cons.mp he with rfl | he
      · exact Or.inr ⟨D, .here, hc⟩
      · exact Or.inl he
    · cases hS; exact ⟨_, List.mem_cons_self .., hc⟩
  | label l =>
    intro ctx p n q D h hf hc; cases h
    refine ⟨rfl, hc, fun e he => he, fun e he => List.mem_cons_of_mem _ he, fun e he => Or.inl he, fun e he => ?_, (fun k Q hS => by cases hS), fun k Q hS => ?_⟩
    · rcases List.mem_cons.mp he with rfl | he
      · exact Or.inr ⟨D, .here, hc⟩
      · exact Or.inl he
    · cases hS; exact ⟨_, _, List.mem_cons_self .., hc⟩
  | seq a b iha ihb =>
    intro ctx p n q D h hf hc
    simp only [stmt] at h
    split at h
    · cases h
    · rename_i na p1 hsa
      split at h
      · cases h
      · rename_i nb p2 hsb
        cases h
        have ha := iha ctx hsa hf hc
        have hb := ihb ctx hsb (stmt_static a ctx hsa hf).fresh ha.chain
        refine ⟨by rw [hb.nid, ha.nid, defersIn, Nat.add_assoc], by have := hb.chain; rwa [ha.nid] at this, (ha.rb.seq hb.rb).iff fun x Q hx => ?_⟩
        rw [ha.nid]
        constructor
        · intro h
          cases h with
          | here => cases hx
          | left h => exact Or.inl h
          | right h => exact Or.inr h
        · rintro (h | h)
          · exact .left h
          · exact .right h
  | defer b ih =>
    intro ctx p n q D h hf hc
    simp only [stmt] at h
    split at h
    · cases h
    · rename_i nb p1 hsb
      cases h
      obtain ⟨h1, h2, h3⟩ := secondary_recs (ih ctx) hsb hf hc
      refine ⟨by simp [newDefr, h1, defersIn, Nat.add_assoc], ?_, (h3.same (p' := p) (q' := newDefr nb p1) rfl rfl rfl rfl).iff fun x Q hx => ?_⟩
      · simp only [newDefr, pendAfter, h1, h2]
        exact .cons ⟨ctx, p, p1, hf, hsb⟩ hc
      · constructor
        · intro h
          cases h with
          | here => cases hx
          | deferred h => exact h
        · exact .deferred
  | block b ih =>
    intro ctx p n q D h hf hc
    simp only [stmt] at h
    split at h
    · cases h
    · rename_i nb p1 hsb
      have hb := ih ctx hsb hf hc
      rw [Option.some.injEq] at h
      obtain rfl : q = { p1 with defr := p.defr } := by rw [← leaveCompound_defr p.defr nb p1, h]
      refine ⟨hb.nid, hc, (hb.rb.same (p' := p) (q' := { p1 with defr := p.defr }) rfl rfl rfl rfl).iff fun x Q hx => ?_⟩
      constructor
      · intro h
        cases h with
        | here => cases hx
        | block h => exact h
      · exact .block
  | ite pre c a b iha ihb =>
    intro ctx p n q D h hf hc
    have hst := stmt_static _ ctx h hf
    simp only [stmt] at h
    split at h
    · cases h
    · rename_i na p1 hsa
      split at h
      · cases h
      · rename_i nb p2 hsb
        obtain ⟨hc1, hn1, hl1, hg1⟩ := newDefrs_is pre hc
        obtain ⟨hf1, _⟩ := newDefrs_fresh pre hf
        obtain ⟨ha1, ha2, ha3⟩ := secondary_recs (iha ctx) hsa hf1 hc1
        have hf2 : Fresh p1.defr p1.nid := by rw [ha2]; exact hf1.mono (by omega)
        obtain ⟨hb1, hb2, hb3⟩ := secondary_recs (ihb ctx) hsb hf2 (by rw [ha2]; exact hc1)
        rw [Option.some.injEq] at h
        obtain ⟨h1, h2, h3⟩ := leaveBlockScope_rest p.defr (.ite c na nb) p2
        have hd : (leaveBlockScope p.defr (.ite c na nb) p2).2.defr = p.defr := by
          refine (leaveBlockScope_defr (D := headerDefers pre) ?_).1
          rw [hb2, ha2]
          have := newDefrs_over pre (Over.nil (E := p.defr)) hf
          simpa using this
        rw [h] at h1 h2 h3 hd
        simp only at h1 h2 h3 hd
        refine ⟨by rw [h3, hb1, ha1, hn1]; simp [defersIn]; omega, by rw [hd]; exact hc,
          ((ha3.seq hb3).same hl1.symm hg1.symm h1 h2).iff fun x Q hx => ?_⟩
        rw [hn1, ha1, hn1]
        constructor
        · intro h
          cases h with
          | here => cases hx
          | iteThen h => exact Or.inl h
          | iteElse h => exact Or.inr h
        · rintro (h | h)
          · exact .iteThen h
          · exact .iteElse h
  | loop init pre c inc body ih =>
    intro ctx p n q D h hf hc
    simp only [stmt] at h
    split at h
    · cases h
    · rename_i nb p1 hsb
      obtain ⟨hc1, hn1, hl1, hg1⟩ := newDefrs_is init hc
      obtain ⟨hf1, _⟩ := newDefrs_fresh init hf
      obtain ⟨hc2, hn2, hl2, hg2⟩ := newDefrs_is pre hc1
      obtain ⟨hf2, _⟩ := newDefrs_fresh pre hf1
      obtain ⟨hb1, hb2, hb3⟩ := secondary_recs (ih _) hsb hf2 hc2
      rw [Option.some.injEq] at h
      obtain ⟨h1, h2, h3⟩ := leaveBlockScope_rest p.defr (.for_ c inc nb (newDefrs pre (newDefrs init p)).nlab ((newDefrs pre (newDefrs init p)).nlab + 1) (newDefrs pre (newDefrs init p)).defr (newDefrs init p).defr) p1
      have hd : (leaveBlockScope p.defr (.for_ c inc nb (newDefrs pre (newDefrs init p)).nlab ((newDefrs pre (newDefrs init p)).nlab + 1) (newDefrs pre (newDefrs init p)).defr (newDefrs init p).defr) p1).2.defr = p.defr := by
        refine (leaveBlockScope_defr (D := headerDefers pre ++ headerDefers init) ?_).1
        rw [hb2]
        have := newDefrs_over pre (newDefrs_over init (Over.nil (E := p.defr)) hf) hf1
        simpa using this
      rw [h] at h1 h2 h3 hd
      simp only at h1 h2 h3 hd hb1
      refine ⟨by rw [h3, hb1, hn2, hn1]; simp [defersIn]; omega, by rw [hd]; exact hc,
        (hb3.same (by rw [← hl1, ← hl2]) (by rw [← hg1, ← hg2]) h1 h2).iff fun x Q hx => ?_⟩
      simp only [hn2, hn1]
      constructor
      · intro h
        cases h with
        | here => cases hx
        | loop h => exact h
      · exact .loop
  | doWhile body c ih =>
    intro ctx p n q D h hf hc
    simp only [stmt] at h
    split at h
    · cases h
    · rename_i nb p1 hsb
      cases h
      obtain ⟨hb1, hb2, hb3⟩ := secondary_recs (ih _) hsb hf hc
      refine ⟨hb1, by rw [hb2]; exact hc, (hb3.same (p' := p) (q' := q) rfl rfl rfl rfl).iff fun x Q hx => ?_⟩
      constructor
      · intro h
        cases h with
        | here => cases hx
        | doWhile h => exact h
      · exact .doWhile
  | sw body ih =>
    intro ctx p n q D h hf hc
    simp only [stmt] at h
    split at h
    · cases h
    · rename_i nb p1 hsb
      cases h
      obtain ⟨hb1, hb2, hb3⟩ := secondary_recs (ih _) hsb hf hc
      refine ⟨hb1, by rw [hb2]; exact hc, (hb3.same (p' := p) (q' := q) rfl rfl rfl rfl).iff fun x Q hx => ?_⟩
      constructor
      · intro h
        cases h with
        | here => cases hx
        | sw h => exact h
      · exact .sw

/-! ### Which jumps are accepted -/

theorem ChainIs.head {E : Chain} {Q : Pend} (h : ChainIs E Q) : E.head = (Q.head?).map (·.1) := by
  cases h <;> rfl

theorem onChain_iff {E : Chain} {Q : Pend} (h : ChainIs E Q) (k : Nat) : onChain (some k) E = true ↔ ∃ A d B, Q = A ++ (k, d) :: B := by
  induction h with
  | nil => simp [onChain]
  | @cons j n next d D hb _ ih =>
    simp only [onChain, Bool.or_eq_true, beq_iff_eq, Option.some.injEq]
    rw [ih]
    constructor
    · rintro (rfl | ⟨A, d', B, rfl⟩)
      · exact ⟨[], d, D, rfl⟩
      · exact ⟨(j, d) :: A, d', B, rfl⟩
    · rintro ⟨A, d', B, he⟩
      cases A with
      | nil => simp at he; exact Or.inl he.1.1
      | cons x A => simp at he; exact Or.inr ⟨A, d', B, he.2⟩

/-- The state of the parser at the beginning of a function. -/
abbrev start : PSt := ⟨.nil, 0, 0, [], []⟩

theorem body_recs {body : DStmt} {n : N} {p : PSt} (hs : stmt (.block body) [] start = some (n, p)) :
    RB (fun x Q => Stands x body 0 [] Q) start p := by
  have := (stmt_recs (.block body) [] (D := []) hs trivial .nil).rb
  refine this.iff fun x Q hx => ?_
  constructor
  · exact .block
  · intro h
    cases h with
    | here => cases hx
    | block h => exact h

theorem findLabel_mem {ls : List (Nat × Nat × Chain)} {l u : Nat} {E : Chain} (h : findLabel ls l = some (u, E)) : (l, u, E) ∈ ls := by
  unfold findLabel at h
  rw [Option.map_eq_some_iff] at h
  obtain ⟨⟨l', x⟩, hf, rfl⟩ := h
  have h1 := List.find?_some hf
  simp at h1; subst h1
  exact List.mem_of_find?_eq_some hf

theorem findLabel_none {ls : List (Nat × Nat × Chain)} {l u : Nat} {E : Chain} (h : (l, u, E) ∈ ls) : findLabel ls l ≠ none := by
  unfold findLabel
  intro hn
  rw [Option.map_eq_none_iff, List.find?_eq_none] at hn
  exact hn _ h (by simp)

/-- An accepted jump: what is pending at the label is the lower part of what is pending at the jump. -/
theorem resolve_ok {body : DStmt} {n : N} {p : PSt} (hs : stmt (.block body) [] start = some (n, p)) {l : Nat} {E : Chain} {Q : Pend}
    (hc : ChainIs E Q) (hQ : Stands (.goto l) body 0 [] Q) {u : Nat} {de : Chain} (h : resolveGoto p.labels (l, E) = some (u, de)) :
    ∃ Q2 R E2, Stands (.label l) body 0 [] Q2 ∧ Q = R ++ Q2 ∧ findLabel p.labels l = some (u, E2) ∧ ChainIs E2 Q2 ∧ de.head = E2.head := by
  unfold resolveGoto at h
  split at h
  · cases h
  · rename_i u' dest hfl
    rcases (body_recs hs).allL _ (findLabel_mem hfl) with h' | ⟨Q2, hS, hc2⟩
    · cases h'
    · simp only at hS hc2
      split at h
      · rename_i hh
        cases h
        cases hc2 with
        | nil => exact ⟨[], Q, .nil, hS, by simp, hfl, .nil, rfl⟩
        | cons _ _ => cases hh
      · rename_i hh
        split at h
        · rename_i hon
          cases h
          cases hc2 with
          | nil => exact absurd rfl hh
          | @cons k n' next d D hb hc2 =>
            obtain ⟨A, d', B, rfl⟩ := (onChain_iff hc k).mp hon
            have := stands_share hQ hS rfl (A' := []) rfl
            exact ⟨_, A, _, hS, by rw [this], hfl, .cons hb hc2, rfl⟩
        · cases h

/-- A jump that leaves scopes only is accepted. -/
theorem resolve_some {body : DStmt} {n : N} {p : PSt} (hs : stmt (.block body) [] start = some (n, p)) {l : Nat} {E : Chain} {Q : Pend}
    (hc : ChainIs E Q) {Q2 R : Pend} (hS : Stands (.label l) body 0 [] Q2) (hQ : Q = R ++ Q2)
    (hone : ∀ Q', Stands (.label l) body 0 [] Q' → Q' = Q2) : (resolveGoto p.labels (l, E)).isSome := by
  obtain ⟨u, E2, hm, _⟩ := (body_recs hs).hasL l Q2 hS
  unfold resolveGoto
  split
  · rename_i hn; exact absurd hn (findLabel_none hm)
  · rename_i u' dest hfl
    rcases (body_recs hs).allL _ (findLabel_mem hfl) with h' | ⟨Q', hS', hc'⟩
    · cases h'
    · simp only at hS' hc'
      rw [hone Q' hS'] at hc'
      split
      · rfl
      · rename_i hh
        cases hc' with
        | nil => exact absurd rfl hh
        | @cons k n' next d D hb hc2 =>
          have hon : onChain (Chain.cons k n' next).head E = true := (onChain_iff hc k).mpr ⟨R, d, D, hQ⟩
          simp only [hon, if_true, Option.isSome]

/-- The chain down to the label. -/
theorem chain_over {R : Pend} : ∀ {E : Chain} {Q2 : Pend}, ChainIs E (R ++ Q2) → (∀ k d, (k, d) ∈ R → ∀ d' D, Q2 ≠ (k, d') :: D) →
    ∃ E', ChainIs E' Q2 ∧ Over E (R.map (·.2)) E' := by
  induction R with
  | nil => intro E Q2 h _; exact ⟨E, h, .nil⟩
  | cons x R ih =>
    intro E Q2 h hne
    cases h with
    | @cons k n next d D hb h =>
      obtain ⟨E', h1, h2⟩ := ih h (fun k d hm => hne k d (List.mem_cons_of_mem _ hm))
      refine ⟨E', h1, .cons hb ?_ h2⟩
      intro he
      cases h1 with
      | nil => cases he
      | cons _ _ => cases he; exact hne _ _ (List.mem_cons_self ..) _ _ rfl

/-! ### Marked places in the code -/

section
variable (m : Nat) (x y : N)
mutual
/-- The action `m` is done in the node only where `x` and `y` follow each other. -/
def Mk : N → Prop
  | .act k => k ≠ m
  | .seq a b => (a = x ∧ b = y) ∨ (Mk a ∧ Mk b)
  | .block n ds _ => Mk n ∧ MkC ds
  | .ite _ a b => Mk a ∧ Mk b
  | .for_ _ inc n _ _ ds _ => inc ≠ m ∧ Mk n ∧ MkC ds
  | .do_ n _ _ _ => Mk n
  | .goto _ ds _ => MkC ds
  | .ugoto _ ds => MkC ds
  | .sw n _ => Mk n
  | .ret ds => MkC ds
  | _ => True
def MkC : Chain → Prop
  | .nil => True
  | .cons _ n next => Mk n ∧ MkC next
end
end

/-- Wherever `act m` is in the code, `C` holds of what is before and after it. -/
def Wh (m : Nat) (C : List I → List I → Prop) (is : List I) : Prop := ∀ a b, is = a ++ .act m :: b → C a b

theorem Wh.append {m : Nat} {C : List I → List I → Prop} (hC : ∀ a b a' b', C a b → C (a' ++ a) (b ++ b')) {x y : List I} (hx : Wh m C x) (hy : Wh m C y) :
    Wh m C (x ++ y) := by
  intro a b h
  rcases List.append_eq_append_iff.mp h with ⟨c, rfl, hc⟩ | ⟨c, rfl, hc⟩
  · have := hC _ _ x [] (hy c b hc)
    simpa using this
  · cases c with
    | nil =>
      have := hC _ _ a [] (hy [] b (by simpa using hc.symm))
      simpa using this
    | cons i c =>
      simp at hc
      obtain ⟨rfl, rfl⟩ := hc
      have := hC _ _ [] y (hx a c rfl)
      simpa using this

theorem Wh.one {m : Nat} {C : List I → List I → Prop} {i : I} (hi : i ≠ .act m) : Wh m C [i] := by
  intro a b h
  cases a with
  | nil => simp at h; exact absurd h.1 hi
  | cons j a => simp at h

theorem Wh.nil {m : Nat} {C : List I → List I → Prop} : Wh m C [] := by
  intro a b h; simp at h

mutual
theorem gen_wh {m : Nat} {C : List I → List I → Prop} (hC : ∀ a b a' b', C a b → C (a' ++ a) (b ++ b')) {x y : N} (ls : List (Nat × Nat × Chain))
    (hxy : ∀ c, Wh m C (gen ls (.seq x y) c).1) : ∀ (n : N) (c : Nat), Mk m x y n → Wh m C (gen ls n c).1
  | .absent, c, _ => Wh.nil
  | .null, c, _ => Wh.nil
  | .act k, c, h => Wh.one (fun he => by cases he; exact h rfl)
  | .seq a b, c, h => by
    rcases h with ⟨rfl, rfl⟩ | ⟨h1, h2⟩
    · exact hxy c
    · exact (gen_wh hC ls hxy a c h1).append hC (gen_wh hC ls hxy b _ h2)
  | .block n ds de, c, h => (gen_wh hC ls hxy n c h.1).append hC (genDefr_wh hC ls hxy ds _ _ h.2)
  | .ite k a b, c, h => by
    simp only [gen]
    exact (Wh.one (by simp)).append hC ((gen_wh hC ls hxy a _ h.1).append hC ((Wh.one (by simp)).append hC ((Wh.one (by simp)).append hC
      ((gen_wh hC ls hxy b _ h.2).append hC (Wh.one (by simp))))))
  | .for_ k inc n brk cont ds de, c, h => by
    simp only [gen]
    exact (Wh.one (by simp)).append hC ((Wh.one (by simp)).append hC ((gen_wh hC ls hxy n _ h.2.1).append hC ((Wh.one (by simp)).append hC
      ((Wh.one (i := .act inc) (fun he => by cases he; exact h.1 rfl)).append hC ((genDefr_wh hC ls hxy ds _ _ h.2.2).append hC ((Wh.one (by simp)).append hC (Wh.one (by simp))))))))
  | .do_ n k brk cont, c, h => by
    simp only [gen]
    exact (Wh.one (by simp)).append hC ((gen_wh hC ls hxy n _ h).append hC ((Wh.one (by simp)).append hC ((Wh.one (by simp)).append hC (Wh.one (by simp)))))
  | .goto l ds de, c, h => (genDefr_wh hC ls hxy ds _ _ h).append hC (Wh.one (by simp))
  | .ugoto l ds, c, h => by
    simp only [gen]
    split
    · exact Wh.nil
    · exact (genDefr_wh hC ls hxy ds _ _ h).append hC (Wh.one (by simp))
  | .label u, c, _ => Wh.one (by simp)
  | .sw n brk, c, h => (gen_wh hC ls hxy n c h).append hC (Wh.one (by simp))
  | .ret ds, c, h => (genDefr_wh hC ls hxy ds _ _ h).append hC (Wh.one (by simp))
theorem genDefr_wh {m : Nat} {C : List I → List I → Prop} (hC : ∀ a b a' b', C a b → C (a' ++ a) (b ++ b')) {x y : N} (ls : List (Nat × Nat × Chain))
    (hxy : ∀ c, Wh m C (gen ls (.seq x y) c).1) : ∀ (E : Chain) (e : Option Nat) (c : Nat), MkC m x y E → Wh m C (genDefr ls E e c).1
  | .nil, _, c, _ => Wh.nil
  | .cons id n next, e, c, h => by
    simp only [genDefr]
    split
    · exact Wh.nil
    · exact (gen_wh hC ls hxy n c h.1).append hC (genDefr_wh hC ls hxy next e _ h.2)
end

theorem leave_mk {m : Nat} {x y : N} {d : Chain} {n n' : N} {q r : PSt} (h : leaveBlockScope d n q = (n', r)) (hd : MkC m x y d) (hq : MkC m x y q.defr) (hc : Mk m x y n) :
    Mk m x y n' ∧ MkC m x y r.defr := by
  unfold leaveBlockScope at h
  split at h
  · split at h <;> cases h
    · exact ⟨⟨hc, hd⟩, hd⟩
    · exact ⟨hc, hd⟩
  · split at h <;> cases h
    · exact ⟨hc, hq⟩
    · exact ⟨⟨hc, hq⟩, hd⟩

theorem secondary_mk {m : Nat} {x y : N} {f : PSt → Option (N × PSt)} {b : Bool} {p : PSt} {n : N} {q : PSt} (h : secondary f b p = some (n, q)) (hp : MkC m x y p.defr)
    (ih : ∀ {n : N} {q : PSt}, f p = some (n, q) → Mk m x y n ∧ MkC m x y q.defr) : Mk m x y n ∧ MkC m x y q.defr := by
  unfold secondary at h
  split at h
  · exact ih h
  · split at h
    · cases h
    · rename_i n' q' hs
      rw [Option.some.injEq] at h
      exact leave_mk h hp (ih hs).2 (ih hs).1

theorem newDefrs_mk {m : Nat} {x y : N} (l : List Nat) : ∀ {p : PSt}, l.count m = 0 → MkC m x y p.defr → MkC m x y (newDefrs l p).defr := by
  induction l with
  | nil => intro p _ h; exact h
  | cons k l ih =>
    intro p hc h
    rw [List.count_cons] at hc
    have hk : k ≠ m := by
      rintro rfl
      simp at hc
    exact ih (p := newDefr (.act k) p) (by omega) ⟨hk, h⟩

/-- A statement without the action. -/
theorem mk_zero {m : Nat} {x y : N} (s : DStmt) : occ m s = 0 → ∀ (ctx : List JCtx) {p : PSt} {n : N} {q : PSt}, stmt s ctx p = some (n, q) → MkC m x y p.defr →
    Mk m x y n ∧ MkC m x y q.defr := by
  induction s with
  | skip => intro _ ctx p n q h hc; cases h; exact ⟨trivial, hc⟩
  | act k =>
    intro ho ctx p n q h hc; cases h
    exact ⟨fun he => by simp [occ, he] at ho, hc⟩
  | cleanup k =>
    intro ho ctx p n q h hc; cases h
    exact ⟨trivial, fun he => by simp [occ, he] at ho, hc⟩
  | ret => intro _ ctx p n q h hc; cases h; exact ⟨hc, hc⟩
  | goto l => intro _ ctx p n q h hc; cases h; exact ⟨hc, hc⟩
  | label l => intro _ ctx p n q h hc; cases h; exact ⟨trivial, hc⟩
  | case =>
    intro _ ctx p n q h hc
    simp only [stmt] at h
    split at h <;> cases h
    exact ⟨trivial, hc⟩
  | brk k =>
    intro _ ctx p n q h hc
    obtain ⟨j, hj, rfl⟩ := jumpTo_brk h
    obtain rfl : p = q := by simp [stmt, jumpTo, hj] at h; exact h
    exact ⟨hc, hc⟩
  | cont k =>
    intro _ ctx p n q h hc
    obtain ⟨j, hj, rfl⟩ := jumpTo_cont h
    obtain rfl : p = q := by simp [stmt, jumpTo, hj] at h; exact h.2
    exact ⟨hc, hc⟩
  | seq a b iha ihb =>
    intro ho ctx p n q h hc
    simp only [occ] at ho
    simp only [stmt] at h
    split at h
    · cases h
    · rename_i na p1 hsa
      split at h
      · cases h
      · rename_i nb p2 hsb
        cases h
        have ha := iha (by omega) ctx hsa hc
        have hb := ihb (by omega) ctx hsb ha.2
        exact ⟨Or.inr ⟨ha.1, hb.1⟩, hb.2⟩
  | defer b ih =>
    intro ho ctx p n q h hc
    simp only [stmt] at h
    split at h
    · cases h
    · rename_i nb p1 hsb
      cases h
      have := secondary_mk hsb hc (fun h => ih ho ctx h hc)
      exact ⟨trivial, this⟩
  | block b ih =>
    intro ho ctx p n q h hc
    simp only [stmt] at h
    split at h
    · cases h
    · rename_i nb p1 hsb
      have hb := ih ho ctx hsb hc
      rw [Option.some.injEq] at h
      unfold leaveCompound at h
      split at h <;> cases h
      · exact ⟨⟨hb.1, hc⟩, hc⟩
      · exact ⟨⟨hb.1, hb.2⟩, hc⟩
  | ite pre c a b iha ihb =>
    intro ho ctx p n q h hc
    simp only [occ] at ho
    simp only [stmt] at h
    split at h
    · cases h
    · rename_i na p1 hsa
      split at h
      · cases h
      · rename_i nb p2 hsb
        have hc1 := newDefrs_mk pre (by omega) hc
        have ha := secondary_mk hsa hc1 (fun h => iha (by omega) ctx h hc1)
        have hb := secondary_mk hsb ha.2 (fun h => ihb (by omega) ctx h ha.2)
        rw [Option.some.injEq] at h
        exact leave_mk h hc hb.2 ⟨ha.1, hb.1⟩
  | loop init pre c inc body ih =>
    intro ho ctx p n q h hc
    simp only [occ] at ho
    simp only [stmt] at h
    split at h
    · cases h
    · rename_i nb p1 hsb
      have hc1 := newDefrs_mk init (by omega) hc
      have hc2 := newDefrs_mk pre (by omega) hc1
      have hb := secondary_mk hsb hc2 (fun h => ih (by omega) _ h hc2)
      rw [Option.some.injEq] at h
      exact leave_mk h hc hb.2 ⟨fun he => by simp [he] at ho, hb.1, hc2⟩
  | doWhile body c ih =>
    intro ho ctx p n q h hc
    simp only [stmt] at h
    split at h
    · cases h
    · rename_i nb p1 hsb
      cases h
      have := secondary_mk (m := m) (x := x) (y := y) hsb hc (fun h => ih ho _ h hc)
      exact this
  | sw body ih =>
    intro ho ctx p n q h hc
    simp only [stmt] at h
    split at h
    · cases h
    · rename_i nb p1 hsb
      cases h
      have := secondary_mk (m := m) (x := x) (y := y) hsb hc (fun h => ih ho _ h hc)
      exact this

/-- What is known of the place of the statement `S`. -/
def Placed (m : Nat) (S : DStmt) (Q : Pend) (x y : N) (q : PSt) : Prop :=
  ∃ ctx0 p0 q0, stmt S ctx0 p0 = some (.seq x y, q0) ∧ ChainIs p0.defr Q ∧ (∀ x y, MkC m x y p0.defr) ∧ ∀ e, e ∈ q0.labels → e ∈ q.labels

theorem Placed.mono {m : Nat} {S : DStmt} {Q : Pend} {x y : N} {q q' : PSt} (h : Placed m S Q x y q) (hl : ∀ e, e ∈ q.labels → e ∈ q'.labels) : Placed m S Q x y q' := by
  obtain ⟨a, b, c, h1, h2, h3, h4⟩ := h
  exact ⟨a, b, c, h1, h2, h3, fun e he => hl e (h4 e he)⟩

theorem secondary_placed {m : Nat} {S : DStmt} {Q : Pend} {f : PSt → Option (N × PSt)} {b : Bool} {p : PSt} {n : N} {q : PSt}
    (h : secondary f b p = some (n, q)) (hp : ∀ x y, MkC m x y p.defr)
    (ih : ∀ {n : N} {q : PSt}, f p = some (n, q) → ∃ x y, Placed m S Q x y q ∧ Mk m x y n ∧ MkC m x y q.defr) :
    ∃ x y, Placed m S Q x y q ∧ Mk m x y n ∧ MkC m x y q.defr := by
  unfold secondary at h
  split at h
  · exact ih h
  · split at h
    · cases h
    · rename_i n' q' hs
      rw [Option.some.injEq] at h
      obtain ⟨x, y, h1, h2, h3⟩ := ih hs
      have hr := (leaveBlockScope_rest p.defr n' q').1
      rw [h] at hr
      exact ⟨x, y, h1.mono (fun e he => by simp only at hr; rw [hr]; exact he), leave_mk h (hp x y) h3 h2⟩

/-- A statement with the action at one place. -/
theorem mk_one {m : Nat} {S : DStmt} (h1 : occ m S = 1) (hS : ∀ ctx p n q, stmt S ctx p = some (n, q) → q.defr = p.defr ∧ ∃ x y, n = .seq x y)
    {s : DStmt} {k : Nat} {D Q : Pend} (hst : Stands S s k D Q) : occ m s = 1 → ∀ (ctx : List JCtx) {p : PSt} {n : N} {q : PSt}, p.nid = k → stmt s ctx p = some (n, q) →
      Fresh p.defr p.nid → ChainIs p.defr D → (∀ x y, MkC m x y p.defr) → ∃ x y, Placed m S Q x y q ∧ Mk m x y n ∧ MkC m x y q.defr := by
  have pos : ∀ {s : DStmt} {k : Nat} {D Q : Pend}, Stands S s k D Q → 1 ≤ occ m s := by
    intro s k D Q h
    induction h with
    | here => omega
    | left _ ih => simp only [occ]; omega
    | right _ ih => simp only [occ]; omega
    | block _ ih => exact ih
    | deferred _ ih => exact ih
    | iteThen _ ih => simp only [occ]; omega
    | iteElse _ ih => simp only [occ]; omega
    | loop _ ih => simp only [occ]; omega
    | doWhile _ ih => exact ih
    | sw _ ih => exact ih
  induction hst with
  | here =>
    intro _ ctx p n q hk h hf hc hm
    obtain ⟨hd, x, y, rfl⟩ := hS ctx p n q h
    exact ⟨x, y, ⟨ctx, p, q, h, hc, hm, fun e he => he⟩, Or.inl ⟨rfl, rfl⟩, by rw [hd]; exact hm x y⟩
  | @left a b k D Q hst ih =>
    intro ho ctx p n q hk h hf hc hm
    have := pos hst
    simp only [occ] at ho
    simp only [stmt] at h
    split at h
    · cases h
    · rename_i na p1 hsa
      split at h
      · cases h
      · rename_i nb p2 hsb
        cases h
        obtain ⟨x, y, hp, hn, hq⟩ := ih (by omega) ctx hk hsa hf hc hm
        have ha := stmt_recs a ctx hsa hf hc
        have hb := stmt_recs b ctx hsb (stmt_static a ctx hsa hf).fresh ha.chain
        obtain ⟨hn2, hq2⟩ := mk_zero b (by omega) ctx hsb hq
        exact ⟨x, y, hp.mono hb.rb.oldL, Or.inr ⟨hn, hn2⟩, hq2⟩
  | @right a b k D Q hst ih =>
    intro ho ctx p n q hk h hf hc hm
    have := pos hst
    simp only [occ] at ho
    simp only [stmt] at h
    split at h
    · cases h
    · rename_i na p1 hsa
      split at h
      · cases h
      · rename_i nb p2 hsb
        cases h
        subst hk
        have ha := stmt_recs a ctx hsa hf hc
        obtain ⟨x, y, hp, hn, hq⟩ := ih (by omega) ctx ha.nid hsb (stmt_static a ctx hsa hf).fresh ha.chain (fun x y => (mk_zero a (by omega) ctx hsa (hm x y)).2)
        exact ⟨x, y, hp, Or.inr ⟨(mk_zero a (by omega) ctx hsa (hm x y)).1, hn⟩, hq⟩
  | @block b k D Q hst ih =>
    intro ho ctx p n q hk h hf hc hm
    simp only [stmt] at h
    split at h
    · cases h
    · rename_i nb p1 hsb
      obtain ⟨x, y, hp, hn, hq⟩ := ih ho ctx hk hsb hf hc hm
      rw [Option.some.injEq] at h
      unfold leaveCompound at h
      split at h <;> cases h
      · exact ⟨x, y, hp.mono (fun e he => he), ⟨hn, hm x y⟩, hm x y⟩
      · exact ⟨x, y, hp.mono (fun e he => he), ⟨hn, hq⟩, hm x y⟩
  | @deferred b k D Q hst ih =>
    intro ho ctx p n q hk h hf hc hm
    simp only [stmt] at h
    split at h
    · cases h
    · rename_i nb p1 hsb
      cases h
      obtain ⟨x, y, hp, hn, hq⟩ := secondary_placed hsb hm (fun h => ih ho ctx hk h hf hc hm)
      exact ⟨x, y, hp.mono (fun e he => he), trivial, hn, hq⟩
  | @iteThen pre c k a b D Q hst ih =>
    intro ho ctx p n q hk h hf hc hm
    have := pos hst
    simp only [occ] at ho
    simp only [stmt] at h
    split at h
    · cases h
    · rename_i na p1 hsa
      split at h
      · cases h
      · rename_i nb p2 hsb
        subst hk
        obtain ⟨hc1, hn1, hl1, hg1⟩ := newDefrs_is pre hc
        obtain ⟨hf1, _⟩ := newDefrs_fresh pre hf
        have hm1 := fun x y => newDefrs_mk (x := x) (y := y) pre (show pre.count m = 0 by omega) (hm x y)
        obtain ⟨ha1, ha2, ha3⟩ := secondary_recs (stmt_recs a ctx) hsa hf1 hc1
        have hf2 : Fresh p1.defr p1.nid := by rw [ha2]; exact hf1.mono (by omega)
        obtain ⟨hb1, hb2, hb3⟩ := secondary_recs (stmt_recs b ctx) hsb hf2 (by rw [ha2]; exact hc1)
        obtain ⟨x, y, hp, hn, hq⟩ := secondary_placed hsa hm1 (fun h => ih (by omega) ctx hn1 h hf1 hc1 hm1)
        have hb := secondary_mk hsb hq (fun h => mk_zero b (by omega) ctx h hq)
        rw [Option.some.injEq] at h
        have hr := (leaveBlockScope_rest p.defr (.ite c na nb) p2).1
        rw [h] at hr
        exact ⟨x, y, hp.mono (fun e he => by simp only at hr; rw [hr]; exact hb3.oldL e he), leave_mk h (hm x y) hb.2 ⟨hn, hb.1⟩⟩
  | @iteElse pre c k a b D Q hst ih =>
    intro ho ctx p n q hk h hf hc hm
    have := pos hst
    simp only [occ] at ho
    simp only [stmt] at h
    split at h
    · cases h
    · rename_i na p1 hsa
      split at h
      · cases h
      · rename_i nb p2 hsb
        subst hk
        obtain ⟨hc1, hn1, hl1, hg1⟩ := newDefrs_is pre hc
        obtain ⟨hf1, _⟩ := newDefrs_fresh pre hf
        have hm1 := fun x y => newDefrs_mk (x := x) (y := y) pre (show pre.count m = 0 by omega) (hm x y)
        obtain ⟨ha1, ha2, ha3⟩ := secondary_recs (stmt_recs a ctx) hsa hf1 hc1
        have hf2 : Fresh p1.defr p1.nid := by rw [ha2]; exact hf1.mono (by omega)
        have hc2 : ChainIs p1.defr (headerPend p.nid pre D) := by rw [ha2]; exact hc1
        have ha := fun x y => secondary_mk (x := x) (y := y) hsa (hm1 x y) (fun h => mk_zero a (by omega) ctx h (hm1 x y))
        obtain ⟨x, y, hp, hn, hq⟩ := secondary_placed hsb (fun x y => (ha x y).2)
          (fun h => ih (by omega) ctx (by rw [ha1, hn1]) h hf2 hc2 (fun x y => (ha x y).2))
        rw [Option.some.injEq] at h
        have hr := (leaveBlockScope_rest p.defr (.ite c na nb) p2).1
        rw [h] at hr
        exact ⟨x, y, hp.mono (fun e he => by simp only at hr; rw [hr]; exact he), leave_mk h (hm x y) hq ⟨(ha x y).1, hn⟩⟩
  | @loop init pre c inc k body D Q hst ih =>
    intro ho ctx p n q hk h hf hc hm
    have := pos hst
    simp only [occ] at ho
    simp only [stmt] at h
    split at h
    · cases h
    · rename_i nb p1 hsb
      subst hk
      obtain ⟨hc1, hn1, hl1, hg1⟩ := newDefrs_is init hc
      obtain ⟨hf1, _⟩ := newDefrs_fresh init hf
      obtain ⟨hc2, hn2, hl2, hg2⟩ := newDefrs_is pre hc1
      obtain ⟨hf2, _⟩ := newDefrs_fresh pre hf1
      have hm1 := fun x y => newDefrs_mk (x := x) (y := y) init (show init.count m = 0 by omega) (hm x y)
      have hm2 := fun x y => newDefrs_mk (x := x) (y := y) pre (show pre.count m = 0 by omega) (hm1 x y)
      obtain ⟨x, y, hp, hn, hq⟩ := secondary_placed hsb hm2 (fun h => ih (by omega) _ (by simp only [hn2, hn1]) h hf2 (by rw [← hn1]; exact hc2) hm2)
      rw [Option.some.injEq] at h
      have hr := (leaveBlockScope_rest p.defr (.for_ c inc nb (newDefrs pre (newDefrs init p)).nlab ((newDefrs pre (newDefrs init p)).nlab + 1) (newDefrs pre (newDefrs init p)).defr (newDefrs init p).defr) p1).1
      rw [h] at hr
      exact ⟨x, y, hp.mono (fun e he => by simp only at hr; rw [hr]; exact he), leave_mk h (hm x y) hq ⟨fun he => by simp [he] at ho; omega, hn, hm2 x y⟩⟩
  | @doWhile body c k D Q hst ih =>
    intro ho ctx p n q hk h hf hc hm
    simp only [stmt] at h
    split at h
    · cases h
    · rename_i nb p1 hsb
      cases h
      have := secondary_placed (m := m) (S := S) (Q := Q) hsb hm (fun h => ih ho _ (p := { p with nlab := p.nlab + 2 }) hk h hf hc hm)
      exact this
  | @sw body k D Q hst ih =>
    intro ho ctx p n q hk h hf hc hm
    simp only [stmt] at h
    split at h
    · cases h
    · rename_i nb p1 hsb
      cases h
      have := secondary_placed (m := m) (S := S) (Q := Q) hsb hm (fun h => ih ho _ (p := { p with nlab := p.nlab + 1 }) hk h hf hc hm)
      exact this

/-- The one label with a name. -/
theorem label_once {l : Nat} (s : DStmt) : ∀ (ctx : List JCtx) {p : PSt} {n : N} {q : PSt}, stmt s ctx p = some (n, q) →
    (q.labels.filter (fun e => e.1 == l)).length = (p.labels.filter (fun e => e.1 == l)).length + labelled l s := by
  have sec : ∀ {f : PSt → Option (N × PSt)} {b : Bool} {p : PSt} {n : N} {q : PSt} {k : Nat}, secondary f b p = some (n, q) →
      (∀ {n : N} {q : PSt}, f p = some (n, q) → (q.labels.filter (fun e => e.1 == l)).length = (p.labels.filter (fun e => e.1 == l)).length + k) →
      (q.labels.filter (fun e => e.1 == l)).length = (p.labels.filter (fun e => e.1 == l)).length + k := by
    intro f b p n q k h ih
    unfold secondary at h
    split at h
    · exact ih h
    · split at h
      · cases h
      · rename_i n' q' hs
        rw [Option.some.injEq] at h
        have hr := (leaveBlockScope_rest p.defr n' q').1
        rw [h] at hr
        simp only at hr
        rw [hr]; exact ih hs
  have hd : ∀ (l : List Nat) (p : PSt), (newDefrs l p).labels = p.labels := by
    intro l
    induction l with
    | nil => intro p; rfl
    | cons n l ih => intro p; exact ih _
  induction s with
  | skip => intro ctx p n q h; cases h; rfl
  | act k => intro ctx p n q h; cases h; rfl
  | cleanup k => intro ctx p n q h; cases h; rfl
  | ret => intro ctx p n q h; cases h; rfl
  | goto l => intro ctx p n q h; cases h; rfl
  | label k =>
    intro ctx p n q h; cases h
    simp only [labelled, List.filter_cons]
    by_cases hk : k = l
    · simp [hk]
    · simp [hk]
  | case =>
    intro ctx p n q h
    simp only [stmt] at h
    split at h <;> cases h
    rfl
  | brk k =>
    intro ctx p n q h
    obtain ⟨j, hj, rfl⟩ := jumpTo_brk h
    obtain rfl : p = q := by simp [stmt, jumpTo, hj] at h; exact h
    rfl
  | cont k =>
    intro ctx p n q h
    obtain ⟨j, hj, rfl⟩ := jumpTo_cont h
    obtain rfl : p = q := by simp [stmt, jumpTo, hj] at h; exact h.2
    rfl
  | seq a b iha ihb =>
    intro ctx p n q h
    simp only [stmt] at h
    split at h
    · cases h
    · rename_i na p1 hsa
      split at h
      · cases h
      · rename_i nb p2 hsb
        cases h
        rw [ihb ctx hsb, iha ctx hsa, labelled, Nat.add_assoc]
  | defer b ih =>
    intro ctx p n q h
    simp only [stmt] at h
    split at h
    · cases h
    · rename_i nb p1 hsb
      cases h
      have := sec hsb (fun h => ih ctx h)
      exact this
  | block b ih =>
    intro ctx p n q h
    simp only [stmt] at h
    split at h
    · cases h
    · rename_i nb p1 hsb
      rw [Option.some.injEq] at h
      obtain rfl : q = { p1 with defr := p.defr } := by rw [← leaveCompound_defr p.defr nb p1, h]
      have := ih ctx hsb
      exact this
  | ite pre c a b iha ihb =>
    intro ctx p n q h
    simp only [stmt] at h
    split at h
    · cases h
    · rename_i na p1 hsa
      split at h
      · cases h
      · rename_i nb p2 hsb
        rw [Option.some.injEq] at h
        have hr := (leaveBlockScope_rest p.defr (.ite c na nb) p2).1
        rw [h] at hr
        simp only at hr
        rw [hr, sec hsb (fun h => ihb ctx h), sec hsa (fun h => iha ctx h), hd, labelled, Nat.add_assoc]
  | loop init pre c inc body ih =>
    intro ctx p n q h
    simp only [stmt] at h
    split at h
    · cases h
    · rename_i nb p1 hsb
      rw [Option.some.injEq] at h
      have hr := (leaveBlockScope_rest p.defr (.for_ c inc nb (newDefrs pre (newDefrs init p)).nlab ((newDefrs pre (newDefrs init p)).nlab + 1) (newDefrs pre (newDefrs init p)).defr (newDefrs init p).defr) p1).1
      rw [h] at hr
      simp only at hr
      rw [hr, sec hsb (fun h => ih _ h)]
      simp only [hd, labelled]
  | doWhile body c ih =>
    intro ctx p n q h
    simp only [stmt] at h
    split at h
    · cases h
    · rename_i nb p1 hsb
      cases h
      have := sec hsb (fun h => ih _ h)
      exact this
  | sw body ih =>
    intro ctx p n q h
    simp only [stmt] at h
    split at h
    · cases h
    · rename_i nb p1 hsb
      cases h
      have := sec hsb (fun h => ih _ h)
      exact this

theorem findLabel_unique {ls : List (Nat × Nat × Chain)} {l u : Nat} {E : Chain} (h1 : (ls.filter (fun e => e.1 == l)).length = 1) (h : (l, u, E) ∈ ls) :
    findLabel ls l = some (u, E) := by
  unfold findLabel
  obtain ⟨x, hx⟩ := List.length_eq_one_iff.mp h1
  have hm : (l, u, E) ∈ ls.filter (fun e => e.1 == l) := List.mem_filter.mpr ⟨h, by simp⟩
  rw [hx] at hm
  simp at hm
  rw [← List.head?_filter, hx, ← hm]
  rfl

theorem wh_none {m : Nat} {E : Chain} (h : ∀ x y, MkC m x y E) (ls : List (Nat × Nat × Chain)) (e : Option Nat) (c : Nat) : Wh m (fun _ _ => False) (genDefr ls E e c).1 :=
  genDefr_wh (x := .null) (y := .null) (fun _ _ _ _ h => h) ls (fun _ => Wh.nil) E e c (h _ _)

/-- The parts of an accepted function. -/
theorem function_parts {body : DStmt} {P : List I} (h : function body = some P) :
    ∃ n p, stmt (.block body) [] start = some (n, p) ∧ (∀ g, g ∈ p.gotos → (resolveGoto p.labels g).isSome) ∧ P = (gen p.labels n 0).1 ++ [.lbl .rtn] := by
  unfold function at h
  split at h
  · cases h
  · rename_i n p hs
    split at h
    · rename_i hg
      cases h
      exact ⟨n, p, hs, List.all_eq_true.mp hg, rfl⟩
    · cases h

theorem occ_block {m : Nat} {b : DStmt} : occ m (.block b) = occ m b := rfl

/-- The marked places of an accepted function. -/
theorem function_marks {body S : DStmt} {m : Nat} {Q : Pend} {n : N} {p : PSt} (hs : stmt (.block body) [] start = some (n, p)) (hst : Stands S body 0 [] Q)
    (h1 : occ m S = 1) (hS : ∀ ctx p n q, stmt S ctx p = some (n, q) → q.defr = p.defr ∧ ∃ x y, n = .seq x y) (ho : occ m body = 1)
    {C : List I → List I → Prop} (hC : ∀ a b a' b', C a b → C (a' ++ a) (b ++ b'))
    (hxy : ∀ x y, Placed m S Q x y p → ∀ c, Wh m C (gen p.labels (.seq x y) c).1) :
    Wh m C ((gen p.labels n 0).1 ++ [.lbl .rtn]) := by
  obtain ⟨x, y, hp, hn, _⟩ := mk_one h1 hS (.block hst) ho [] rfl hs trivial .nil (fun _ _ => trivial)
  exact (gen_wh hC p.labels (hxy x y hp) n 0 hn).append hC (Wh.one (by simp))

theorem at_get {P : List I} {pc : Nat} {i : I} (h : P[pc]? = some i) : ∃ a b, P = a ++ i :: b ∧ a.length = pc := by
  obtain ⟨hlt, he⟩ := List.getElem?_eq_some_iff.mp h
  refine ⟨P.take pc, P.drop (pc + 1), ?_, by simp; omega⟩
  rw [← he]
  simp

/-- From the place of a jump to the place after the label. -/
theorem goto_run {body : DStmt} {P : List I} (h : function body = some P) (hP : (defined P).Nodup) {l m m' : Nat} {Q1 Q2 R : Pend} {t : List DEv}
    (hg : Stands (.seq (.act m) (.goto l)) body 0 [] Q1) (hl : Stands (.seq (.label l) (.act m')) body 0 [] Q2)
    (ho : occ m body = 1) (ho' : occ m' body = 1) (hone : labelled l body = 1) (hR : Q1 = R ++ Q2)
    (hd : DRuns (.defers (R.map (·.2))) t .normal []) {pc q : Nat} (hpc : P[pc]? = some (.act m)) (hq : P[q]? = some (.act m')) : Steps P (pc + 1) t q := by
  obtain ⟨n, p, hs, hall, rfl⟩ := function_parts h
  have hS1 : Stands (.goto l) body 0 [] Q1 := by
    clear hR ho ho' hpc
    have : ∀ {s : DStmt} {k : Nat} {D Q : Pend}, Stands (.seq (.act m) (.goto l)) s k D Q → Stands (.goto l) s k D Q := by
      intro s k D Q h
      induction h with
      | here => exact .right .here
      | left _ ih => exact .left ih
      | right _ ih => exact .right ih
      | block _ ih => exact .block ih
      | deferred _ ih => exact .deferred ih
      | iteThen _ ih => exact .iteThen ih
      | iteElse _ ih => exact .iteElse ih
      | loop _ ih => exact .loop ih
      | doWhile _ ih => exact .doWhile ih
      | sw _ ih => exact .sw ih
    exact this hg
  -- the place of the label
  have hL := function_marks (m := m') hs hl (by simp [occ]) (fun ctx p n q h => by simp [stmt] at h; exact ⟨by rw [← h.2], _, _, h.1.symm⟩) ho'
    (C := fun a _ => ∃ u E r, findLabel p.labels l = some (u, E) ∧ ChainIs E Q2 ∧ a = r ++ [.lbl (.name u)])
    (fun a b a' b' ⟨u, E, r, h1, h2, h3⟩ => ⟨u, E, a' ++ r, h1, h2, by simp [h3]⟩)
    (fun x y hp c => by
      obtain ⟨ctx0, p0, q0, h1, h2, _, h4⟩ := hp
      simp [stmt] at h1
      obtain ⟨⟨rfl, rfl⟩, rfl⟩ := h1
      have hfl : findLabel p.labels l = some (p0.nlab, p0.defr) := by
        refine findLabel_unique ?_ (h4 _ (by simp))
        have := label_once (l := l) (.block body) [] hs
        simpa [start, labelled, hone] using this
      intro a b he
      simp only [gen] at he
      refine ⟨p0.nlab, p0.defr, [], hfl, h2, ?_⟩
      cases a with
      | nil => simp at he
      | cons i a =>
        cases a with
        | nil => simp at he; simp [he.1]
        | cons j a => simp at he)
  -- the place of the jump
  have hG := function_marks (m := m) hs hg (by simp [occ]) (fun ctx p n q h => by simp [stmt] at h; exact ⟨by rw [← h.2], _, _, h.1.symm⟩) ho
    (C := fun _ b => ∃ ds c r, ChainIs ds Q1 ∧ b = (gen p.labels (.ugoto l ds) c).1 ++ r)
    (fun a b a' b' ⟨ds, c, r, h1, h2⟩ => ⟨ds, c, r ++ b', h1, by simp [h2]⟩)
    (fun x y hp c => by
      obtain ⟨ctx0, p0, q0, h1, h2, h3, _⟩ := hp
      simp [stmt] at h1
      obtain ⟨⟨rfl, rfl⟩, rfl⟩ := h1
      intro a b he
      have he' : .act m :: (gen p.labels (.ugoto l p0.defr) c).1 = a ++ .act m :: b := he
      cases a with
      | nil => simp at he'; exact ⟨p0.defr, c, [], h2, by simp [he']⟩
      | cons i a =>
        exfalso
        simp only [List.cons_append, List.cons.injEq] at he'
        have hw : Wh m (fun _ _ => False) (gen p.labels (.ugoto l p0.defr) c).1 := by
          simp only [gen]
          split
          · exact Wh.nil
          · exact (wh_none h3 _ _ _).append (fun _ _ _ _ h => h) (Wh.one (by simp))
        exact hw a b he'.2)
  obtain ⟨a, b, hab, rfl⟩ := at_get hpc
  obtain ⟨ds, c, r, hds, hb⟩ := hG a b hab
  obtain ⟨a', b', hab', rfl⟩ := at_get hq
  obtain ⟨u, E, r', hfl, hE, ha'⟩ := hL a' b' hab'
  -- the jump is resolved to that label
  obtain ⟨u1, de, hres⟩ : ∃ u1 de, resolveGoto p.labels (l, ds) = some (u1, de) := by
    obtain ⟨E1, hE1, hc1⟩ := (body_recs hs).hasG l Q1 hS1
    have h1 := hall _ hE1
    have hx : (resolveGoto p.labels (l, ds)).isSome := by
      unfold resolveGoto at h1 ⊢
      simp only [hfl] at h1 ⊢
      split
      · rfl
      · rename_i hne
        rw [if_neg hne] at h1
        cases hE with
        | nil => exact absurd rfl hne
        | @cons k n' next d D hb' hE =>
          have hon : onChain (Chain.cons k n' next).head ds = true := (onChain_iff hds k).mpr ⟨R, d, D, hR⟩
          simp only [hon, if_true, Option.isSome]
    obtain ⟨⟨u1, de⟩, hx⟩ := Option.isSome_iff_exists.mp hx
    exact ⟨u1, de, hx⟩
  obtain ⟨Q2', R', E2, _, hR', hfl', hE2, hde⟩ := resolve_ok hs hds hS1 hres
  rw [hfl] at hfl'
  cases hfl'
  have hne : ∀ k d, (k, d) ∈ R → ∀ d' D, Q2 ≠ (k, d') :: D := by
    intro k d hm d' D he
    obtain ⟨A, B, rfl⟩ := List.append_of_mem hm
    have := stands_share hS1 hS1 (Q := Q1) (Q' := Q1) (k := k) (d := d) (d' := d') (A := A) (B := B ++ Q2) (A' := A ++ (k, d) :: B) (B' := D) (by rw [hR]; simp) (by rw [hR, he])
    rw [he] at this
    have := congrArg List.length this
    simp at this
    omega
  obtain ⟨E', hE', hO⟩ := chain_over (R := R) (E := ds) (Q2 := Q2) (by rw [← hR]; exact hds) hne
  have hhead : de.head = E'.head := by rw [hde, hE.head, hE'.head]
  have hgen : (gen p.labels (.ugoto l ds) c).1 = (genDefr p.labels ds E'.head c).1 ++ [.jmp (.name u)] := by
    simp only [gen, hres, hhead]
  rw [hgen] at hb
  have hat : At ((gen p.labels n 0).1 ++ [.lbl .rtn]) (a.length + 1) ((genDefr p.labels ds E'.head c).1 ++ [.jmp (.name u)]) :=
    ⟨a ++ [.act m], r, by rw [hab, hb]; simp, by simp⟩
  obtain ⟨hat1, hat2⟩ := at_append hat
  have hgood : Good _ p.labels (R.map (·.2)) t := sim hP hd
  have s1 := hgood.run hO hat1
  have hlbl : ((gen p.labels n 0).1 ++ [.lbl .rtn])[r'.length]? = some (.lbl (.name u)) := by
    rw [hab', ha']; simp
  have s2 := Steps.one (.jmp (at_cons hat2).1 (posOf_here hP hlbl))
  have s3 := Steps.one (.lbl hlbl)
  have := s1.trans (s2.trans s3)
  rw [ha']
  simpa using this

/-! ### Cases -/

theorem secondary_stmt {f : PSt → Option (N × PSt)} {b : Bool} {p : PSt} {n : N} {q : PSt} (h : secondary f b p = some (n, q)) : ∃ n' q', f p = some (n', q') := by
  unfold secondary at h
  split at h
  · exact ⟨_, _, h⟩
  · split at h
    · cases h
    · rename_i n' q' hs; exact ⟨_, _, hs⟩

/-- A statement inside of one that was parsed was parsed. -/
theorem stands_stmt {x s : DStmt} {k : Nat} {D Q : Pend} (h : Stands x s k D Q) : ∀ (ctx : List JCtx) {p : PSt} {n : N} {q : PSt}, stmt s ctx p = some (n, q) →
    Fresh p.defr p.nid → ∃ ctx' p' n' q', stmt x ctx' p' = some (n', q') ∧ Fresh p'.defr p'.nid := by
  induction h with
  | here => intro ctx p n q h hf; exact ⟨_, _, _, _, h, hf⟩
  | left _ ih =>
    intro ctx p n q h hf
    simp only [stmt] at h
    split at h
    · cases h
    · rename_i na p1 hsa; exact ih ctx hsa hf
  | right _ ih =>
    intro ctx p n q h hf
    simp only [stmt] at h
    split at h
    · cases h
    · rename_i na p1 hsa
      split at h
      · cases h
      · rename_i nb p2 hsb; exact ih ctx hsb (stmt_static _ ctx hsa hf).fresh
  | block _ ih =>
    intro ctx p n q h hf
    simp only [stmt] at h
    split at h
    · cases h
    · rename_i nb p1 hsb; exact ih ctx hsb hf
  | deferred _ ih =>
    intro ctx p n q h hf
    simp only [stmt] at h
    split at h
    · cases h
    · rename_i nb p1 hsb
      obtain ⟨n', q', hs⟩ := secondary_stmt hsb
      exact ih ctx hs hf
  | @iteThen pre _ _ _ _ _ _ _ ih =>
    intro ctx p n q h hf
    simp only [stmt] at h
    split at h
    · cases h
    · rename_i nb p1 hsb
      obtain ⟨n', q', hs⟩ := secondary_stmt hsb
      exact ih ctx hs (newDefrs_fresh pre hf).1
  | @iteElse pre _ _ _ _ _ _ _ ih =>
    intro ctx p n q h hf
    simp only [stmt] at h
    split at h
    · cases h
    · rename_i na p1 hsa
      split at h
      · cases h
      · rename_i nb p2 hsb
        obtain ⟨n', q', hs⟩ := secondary_stmt hsb
        have hf1 := (newDefrs_fresh pre hf).1
        have hk := secondary_keeps hsa hf1
        exact ih ctx hs (by rw [hk.1]; exact hf1.mono hk.2)
  | @loop init pre _ _ _ _ _ _ _ ih =>
    intro ctx p n q h hf
    simp only [stmt] at h
    split at h
    · cases h
    · rename_i nb p1 hsb
      obtain ⟨n', q', hs⟩ := secondary_stmt hsb
      exact ih _ hs (newDefrs_fresh pre (newDefrs_fresh init hf).1).1
  | doWhile _ ih =>
    intro ctx p n q h hf
    simp only [stmt] at h
    split at h
    · cases h
    · rename_i nb p1 hsb
      obtain ⟨n', q', hs⟩ := secondary_stmt hsb
      exact ih _ hs hf
  | sw _ ih =>
    intro ctx p n q h hf
    simp only [stmt] at h
    split at h
    · cases h
    · rename_i nb p1 hsb
      obtain ⟨n', q', hs⟩ := secondary_stmt hsb
      exact ih _ hs hf

theorem near_case {s : DStmt} {D R : List DStmt} (h : Near .case s D R) : ∀ (j : JCtx) (ctx : List JCtx) {p : PSt} {n : N} {q : PSt}, stmt s (j :: ctx) p = some (n, q) →
    Fresh p.defr p.nid → Over p.defr D j.dend → R = [] := by
  induction h with
  | here =>
    intro j ctx p n q h hf ho
    simp only [stmt] at h
    split at h
    · rename_i hc
      simp only [caseOk, Bool.and_eq_true, beq_iff_eq] at hc
      exact (ho.head_eq hc.2.symm).1
    · cases h
  | left _ ih =>
    intro j ctx p n q h hf ho
    simp only [stmt] at h
    split at h
    · cases h
    · rename_i na p1 hsa; exact ih j ctx hsa hf ho
  | right _ ih =>
    intro j ctx p n q h hf ho
    simp only [stmt] at h
    split at h
    · cases h
    · rename_i na p1 hsa
      split at h
      · cases h
      · rename_i nb p2 hsb
        have hst := stmt_static _ (j :: ctx) hsa hf
        exact ih j ctx hsb hst.fresh (hst.over _ _ ho)
  | block _ ih =>
    intro j ctx p n q h hf ho
    simp only [stmt] at h
    split at h
    · cases h
    · rename_i nb p1 hsb; exact ih j ctx hsb hf ho
  | deferred _ ih =>
    intro j ctx p n q h hf ho
    simp only [stmt] at h
    split at h
    · cases h
    · rename_i nb p1 hsb
      obtain ⟨n', q', hs⟩ := secondary_stmt hsb
      exact ih j ctx hs hf ho
  | @iteThen pre _ _ _ _ _ _ ih =>
    intro j ctx p n q h hf ho
    simp only [stmt] at h
    split at h
    · cases h
    · rename_i nb p1 hsb
      obtain ⟨n', q', hs⟩ := secondary_stmt hsb
      exact ih j ctx hs (newDefrs_fresh pre hf).1 (newDefrs_over pre ho hf)
  | @iteElse pre _ _ _ _ _ _ ih =>
    intro j ctx p n q h hf ho
    simp only [stmt] at h
    split at h
    · cases h
    · rename_i na p1 hsa
      split at h
      · cases h
      · rename_i nb p2 hsb
        obtain ⟨n', q', hs⟩ := secondary_stmt hsb
        have hf1 := (newDefrs_fresh pre hf).1
        have hk := secondary_keeps hsa hf1
        exact ih j ctx hs (by rw [hk.1]; exact hf1.mono hk.2) (by rw [hk.1]; exact newDefrs_over pre ho hf)

theorem function_case {body b : DStmt} {P : List I} {Q : Pend} {R : List DStmt} (h : function body = some P) (hsw : Stands (.sw b) body 0 [] Q) (hn : Near .case b [] R) : R = [] := by
  obtain ⟨n, p, hs, _, _⟩ := function_parts h
  obtain ⟨ctx', p', n', q', hst, hf⟩ := stands_stmt (.block hsw) [] hs trivial
  simp only [stmt] at hst
  split at hst
  · cases hst
  · rename_i nb p1 hsb
    obtain ⟨n'', q'', hs'⟩ := secondary_stmt hsb
    exact near_case hn _ _ hs' hf .nil

end Slimcc.DfrL
