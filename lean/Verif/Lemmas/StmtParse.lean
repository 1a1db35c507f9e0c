import Verif.Lemmas.StmtAt
/-! What the parser records of labels and cases. -/
set_option autoImplicit false
namespace Slimcc
open Slimcc.Spec Slimcc.Spec.CTy Slimcc.Ty Slimcc.X86 Slimcc.Gen

/-- The cases and the default label after reading some labels of the `switch` in progress. -/
structure Grow (t : ITy) (p p' : PSt) (ls : List Lbl) : Prop where
  inv : CaseInv t p.cases → CaseInv t p'.cases
  mono : CaseInv t p.cases → ∀ u v, Cov t p.cases u v → Cov t p'.cases u v
  org : CaseInv t p.cases → ∀ u v, Cov t p'.cases u v → Cov t p.cases u v ∨ ∃ lo hi, .case lo hi ∈ ls ∧ cb t lo ≤ v ∧ v ≤ cb t hi
  ord : CaseInv t p.cases → ∀ lo hi, .case lo hi ∈ ls → cb t lo ≤ cb t hi
  dmono : ∀ u, p.dflt = some u → p'.dflt = some u
  dorg : ∀ u, p'.dflt = some u → p.dflt = some u ∨ .dflt ∈ ls

theorem Grow.refl (t : ITy) (p : PSt) : Grow t p p [] :=
  ⟨id, fun _ _ _ h => h, fun _ _ _ h => Or.inl h, fun _ lo hi h => (nomatch h), fun _ h => h, fun _ h => Or.inl h⟩

theorem Grow.trans {t : ITy} {p q r : PSt} {a b : List Lbl} (h : Grow t p q a) (h' : Grow t q r b) : Grow t p r (a ++ b) where
  inv i := h'.inv (h.inv i)
  mono i u v c := h'.mono (h.inv i) u v (h.mono i u v c)
  org i u v c := by
    rcases h'.org (h.inv i) u v c with c | ⟨lo, hi, m, b⟩
    · rcases h.org i u v c with c | ⟨lo, hi, m, b⟩
      · exact Or.inl c
      · exact Or.inr ⟨lo, hi, List.mem_append_left _ m, b⟩
    · exact Or.inr ⟨lo, hi, List.mem_append_right _ m, b⟩
  ord i lo hi m := by
    rcases List.mem_append.1 m with m | m
    · exact h.ord i lo hi m
    · exact h'.ord (h.inv i) lo hi m
  dmono u e := h'.dmono u (h.dmono u e)
  dorg u e := by
    rcases h'.dorg u e with e | m
    · rcases h.dorg u e with e | m
      · exact Or.inl e
      · exact Or.inr (List.mem_append_left _ m)
    · exact Or.inr (List.mem_append_right _ m)

/-- Only the cases and the default label matter. -/
theorem Grow.congr {t : ITy} {p p' q q' : PSt} {a : List Lbl} (h : Grow t p q a) (hc : p'.cases = p.cases) (hd : p'.dflt = p.dflt) (hc' : q'.cases = q.cases)
    (hd' : q'.dflt = q.dflt) : Grow t p' q' a := by
  constructor
  · rw [hc, hc']; exact h.inv
  · rw [hc, hc']; exact h.mono
  · rw [hc, hc']; exact h.org
  · rw [hc]; exact h.ord
  · rw [hd, hd']; exact h.dmono
  · rw [hd, hd']; exact h.dorg

theorem labelStmt_ok (opt : Bool) (jc : List JumpCtx) (u : Nat) : ∀ (ls : List Lbl) (p p' : PSt), labelStmt opt jc u ls p = some p' →
    p'.id = p.id ∧ p'.labels = p.labels ∧ (∀ t, activeSwitch jc = some t → Grow t p p' ls ∧
      (CaseInv t p.cases → ∀ lo hi, .case lo hi ∈ ls → ∀ v, cb t lo ≤ v → v ≤ cb t hi → Cov t p'.cases u v) ∧ (.dflt ∈ ls → p'.dflt = some u)) ∧
    (activeSwitch jc = none → (∀ lo hi, .case lo hi ∉ ls) ∧ .dflt ∉ ls)
  | [], p, p', h => by
    injection h with h; subst h
    exact ⟨rfl, rfl, fun t _ => ⟨Grow.refl t p, fun _ _ _ h => (nomatch h), fun h => (nomatch h)⟩, fun _ => ⟨fun _ _ h => (nomatch h), fun h => (nomatch h)⟩⟩
  | .user n :: ls, p, p', h => by
    obtain ⟨h1, h2, h3, h4⟩ := labelStmt_ok opt jc u ls p p' h
    refine ⟨h1, h2, fun t ht => ?_, fun hn => ?_⟩
    · obtain ⟨g, g1, g2⟩ := h3 t ht
      refine ⟨⟨g.inv, g.mono, fun i x v c => ?_, fun i lo hi m => ?_, g.dmono, fun x e => ?_⟩, fun i lo hi m => ?_, fun m => ?_⟩
      · rcases g.org i x v c with c | ⟨lo, hi, m, b⟩
        · exact Or.inl c
        · exact Or.inr ⟨lo, hi, List.mem_cons_of_mem _ m, b⟩
      · rcases List.mem_cons.1 m with e | m
        · cases e
        · exact g.ord i lo hi m
      · rcases g.dorg x e with e | m
        · exact Or.inl e
        · exact Or.inr (List.mem_cons_of_mem _ m)
      · rcases List.mem_cons.1 m with e | m
        · cases e
        · exact g1 i lo hi m
      · rcases List.mem_cons.1 m with e | m
        · cases e
        · exact g2 m
    · obtain ⟨a, b⟩ := h4 hn
      refine ⟨fun lo hi m => ?_, fun m => ?_⟩
      · rcases List.mem_cons.1 m with e | m
        · cases e
        · exact a lo hi m
      · rcases List.mem_cons.1 m with e | m
        · cases e
        · exact b m
  | .dflt :: ls, p, p', h => by
    simp only [labelStmt] at h
    split at h
    · cases h
    · rename_i t0 ht0
      split at h
      · cases h
      · rename_i hd
        have hd' : p.dflt = none := by
          cases e : p.dflt with
          | none => rfl
          | some x => rw [e] at hd; exact absurd rfl hd
        obtain ⟨h1, h2, h3, h4⟩ := labelStmt_ok opt jc u ls _ p' h
        refine ⟨h1, h2, fun t ht => ?_, fun hn => by rw [ht0] at hn; cases hn⟩
        obtain ⟨g, g1, g2⟩ := h3 t ht
        have gd : Grow t p { p with dflt := some u } [.dflt] :=
          ⟨id, fun _ _ _ h => h, fun _ _ _ h => Or.inl h, fun _ lo hi m => by simp at m, fun x e => (by rw [hd'] at e; cases e), fun _ _ => Or.inr (by simp)⟩
        refine ⟨gd.trans g, fun i lo hi m => ?_, fun _ => g.dmono u rfl⟩
        rcases List.mem_cons.1 m with e | m
        · cases e
        · exact g1 i lo hi m
  | .case lo hi :: ls, p, p', h => by
    simp only [labelStmt] at h
    split at h
    · cases h
    · rename_i t0 ht0
      split at h
      · cases h
      · rename_i cs hcs
        obtain ⟨h1, h2, h3, h4⟩ := labelStmt_ok opt jc u ls _ p' h
        refine ⟨h1, h2, fun t ht => ?_, fun hn => by rw [ht0] at hn; cases hn⟩
        have ett : t0 = t := by rw [ht0] at ht; injection ht
        subst ett
        obtain ⟨g, g1, g2⟩ := h3 t0 ht
        have ac := fun i => addCase_ok opt t0 u lo hi p.cases cs i hcs
        have gd : Grow t0 p { p with cases := cs } [.case lo hi] := by
          refine ⟨fun i => (ac i).2.1, fun i x v c => ((ac i).2.2.1 x v).2 (Or.inl c), fun i x v c => ?_, fun i lo' hi' m => ?_, fun _ e => e, fun _ e => Or.inl e⟩
          · rcases ((ac i).2.2.1 x v).1 c with c | c
            · exact Or.inl c
            · exact Or.inr ⟨lo, hi, by simp, c.2⟩
          · simp at m
            obtain ⟨rfl, rfl⟩ := m
            exact (ac i).1
        refine ⟨gd.trans g, fun i lo' hi' m v b1 b2 => ?_, fun m => ?_⟩
        · rcases List.mem_cons.1 m with e | m
          · injection e with e1 e2
            subst e1; subst e2
            exact g.mono (gd.inv i) u v (((ac i).2.2.1 u v).2 (Or.inr ⟨rfl, b1, b2⟩))
          · exact g1 (gd.inv i) lo' hi' m v b1 b2
        · rcases List.mem_cons.1 m with e | m
          · cases e
          · exact g2 m

section
variable (opt : Bool) (Γ : Nat → CTy)

/-- Parsing a statement: the cases of the `switch` in progress grow by the labels of the statement;
labels are only added, and those added are the names in the statement. -/
theorem parse_ok : ∀ (s : Stmt) (nm : List Nat) (jc : List JumpCtx) (p : PSt) (n : SNode) (p' : PSt), parseStmt opt Γ s nm jc p = some (n, p') →
    (∀ t, activeSwitch jc = some t → Grow t p p' s.labels) ∧ (∃ l, p'.labels = l ++ p.labels ∧ (l.flatMap (·.1)).Perm s.names)
  | .skip, nm, jc, p, n, p', h => by
    simp only [parseStmt, Option.some.injEq, Prod.mk.injEq] at h
    obtain ⟨_, rfl⟩ := h
    exact ⟨fun t _ => Grow.refl t p, [], rfl, .refl _⟩
  | .expr _, nm, jc, p, n, p', h => by
    simp only [parseStmt, Option.some.injEq, Prod.mk.injEq] at h
    obtain ⟨_, rfl⟩ := h
    exact ⟨fun t _ => Grow.refl t p, [], rfl, .refl _⟩
  | .call _, nm, jc, p, n, p', h => by
    simp only [parseStmt, Option.some.injEq, Prod.mk.injEq] at h
    obtain ⟨_, rfl⟩ := h
    exact ⟨fun t _ => Grow.refl t p, [], rfl, .refl _⟩
  | .goto _, nm, jc, p, n, p', h => by
    simp only [parseStmt, Option.some.injEq, Prod.mk.injEq] at h
    obtain ⟨_, rfl⟩ := h
    exact ⟨fun t _ => Grow.refl t p, [], rfl, .refl _⟩
  | .ret _, nm, jc, p, n, p', h => by
    simp only [parseStmt, Option.some.injEq, Prod.mk.injEq] at h
    obtain ⟨_, rfl⟩ := h
    exact ⟨fun t _ => Grow.refl t p, [], rfl, .refl _⟩
  | .brk _, nm, jc, p, n, p', h => by
    simp only [parseStmt, Option.bind_eq_bind] at h
    obtain ⟨_, _, h⟩ := Option.bind_eq_some_iff.1 h
    simp only [Option.some.injEq, Prod.mk.injEq] at h
    obtain ⟨_, rfl⟩ := h
    exact ⟨fun t _ => Grow.refl t p, [], rfl, .refl _⟩
  | .cont _, nm, jc, p, n, p', h => by
    simp only [parseStmt, Option.bind_eq_bind] at h
    obtain ⟨_, _, h⟩ := Option.bind_eq_some_iff.1 h
    simp only [Option.some.injEq, Prod.mk.injEq] at h
    obtain ⟨_, rfl⟩ := h
    exact ⟨fun t _ => Grow.refl t p, [], rfl, .refl _⟩
  | .seq a b, nm, jc, p, n, p', h => by
    simp only [parseStmt, Option.bind_eq_bind] at h
    obtain ⟨⟨na, q⟩, ha, h⟩ := Option.bind_eq_some_iff.1 h
    obtain ⟨⟨nb, r⟩, hb, h⟩ := Option.bind_eq_some_iff.1 h
    simp only [Option.some.injEq, Prod.mk.injEq] at h
    obtain ⟨_, rfl⟩ := h
    obtain ⟨g1, l1, e1, q1⟩ := parse_ok a _ _ _ _ _ ha
    obtain ⟨g2, l2, e2, q2⟩ := parse_ok b _ _ _ _ _ hb
    refine ⟨fun t ht => (g1 t ht).trans (g2 t ht), l2 ++ l1, by rw [e2, e1, List.append_assoc], ?_⟩
    rw [List.flatMap_append]
    exact List.perm_append_comm.trans (q1.append q2)
  | .if_ c a, nm, jc, p, n, p', h => by
    simp only [parseStmt, Option.bind_eq_bind] at h
    obtain ⟨⟨na, q⟩, ha, h⟩ := Option.bind_eq_some_iff.1 h
    simp only [Option.some.injEq, Prod.mk.injEq] at h
    obtain ⟨_, rfl⟩ := h
    exact parse_ok a _ _ _ _ _ ha
  | .ifElse c a b, nm, jc, p, n, p', h => by
    simp only [parseStmt, Option.bind_eq_bind] at h
    obtain ⟨⟨na, q⟩, ha, h⟩ := Option.bind_eq_some_iff.1 h
    obtain ⟨⟨nb, r⟩, hb, h⟩ := Option.bind_eq_some_iff.1 h
    simp only [Option.some.injEq, Prod.mk.injEq] at h
    obtain ⟨_, rfl⟩ := h
    obtain ⟨g1, l1, e1, q1⟩ := parse_ok a _ _ _ _ _ ha
    obtain ⟨g2, l2, e2, q2⟩ := parse_ok b _ _ _ _ _ hb
    refine ⟨fun t ht => (g1 t ht).trans (g2 t ht), l2 ++ l1, by rw [e2, e1, List.append_assoc], ?_⟩
    rw [List.flatMap_append]
    exact List.perm_append_comm.trans (q1.append q2)
  | .loop i c x b, nm, jc, p, n, p', h => by
    simp only [parseStmt, Option.bind_eq_bind] at h
    obtain ⟨⟨na, q⟩, ha, h⟩ := Option.bind_eq_some_iff.1 h
    simp only [Option.some.injEq, Prod.mk.injEq] at h
    obtain ⟨_, rfl⟩ := h
    obtain ⟨g1, l1, e1, q1⟩ := parse_ok b _ _ _ _ _ ha
    exact ⟨fun t ht => (g1 t ht).congr rfl rfl rfl rfl, l1, e1, q1⟩
  | .dowhile b c, nm, jc, p, n, p', h => by
    simp only [parseStmt, Option.bind_eq_bind] at h
    obtain ⟨⟨na, q⟩, ha, h⟩ := Option.bind_eq_some_iff.1 h
    simp only [Option.some.injEq, Prod.mk.injEq] at h
    obtain ⟨_, rfl⟩ := h
    obtain ⟨g1, l1, e1, q1⟩ := parse_ok b _ _ _ _ _ ha
    exact ⟨fun t ht => (g1 t ht).congr rfl rfl rfl rfl, l1, e1, q1⟩
  | .switch e b, nm, jc, p, n, p', h => by
    simp only [parseStmt, Option.bind_eq_bind] at h
    obtain ⟨⟨na, q⟩, ha, h⟩ := Option.bind_eq_some_iff.1 h
    simp only [Option.some.injEq, Prod.mk.injEq] at h
    obtain ⟨_, rfl⟩ := h
    obtain ⟨g1, l1, e1, q1⟩ := parse_ok b _ _ _ _ _ ha
    exact ⟨fun t ht => (Grow.refl t p).congr rfl rfl rfl rfl, l1, e1, q1⟩
  | .lab [] s, nm, jc, p, n, p', h => parse_ok s _ _ _ _ _ h
  | .lab (x :: ls) s, nm, jc, p, n, p', h => by
    simp only [parseStmt, Option.bind_eq_bind] at h
    obtain ⟨q, hq, h⟩ := Option.bind_eq_some_iff.1 h
    obtain ⟨⟨ns, r⟩, ha, h⟩ := Option.bind_eq_some_iff.1 h
    simp only [Option.some.injEq, Prod.mk.injEq] at h
    obtain ⟨_, rfl⟩ := h
    obtain ⟨a1, a2, a3, a4⟩ := labelStmt_ok opt jc _ _ _ _ hq
    obtain ⟨g1, l1, e1, q1⟩ := parse_ok s _ _ _ _ _ ha
    refine ⟨fun t ht => ((a3 t ht).1.congr rfl rfl rfl rfl : Grow t p q _).trans ((g1 t ht).congr rfl rfl rfl rfl), l1 ++ [(userNames (x :: ls), p.id)], ?_, ?_⟩
    · rw [e1]; simp [a2]
    · rw [List.flatMap_append]
      simp only [List.flatMap_cons, List.flatMap_nil, List.append_nil]
      exact List.perm_append_comm.trans (q1.append_left _)

end

theorem lookup_of_nodup : ∀ (l : List (List Nat × Nat)), (l.flatMap (·.1)).Nodup → ∀ x ∈ l, ∀ n ∈ x.1, lookupLabel l n = some x.2
  | [], _, _, h, _, _ => by cases h
  | (ns, u) :: l, hd, x, hx, n, hn => by
    simp only [List.flatMap_cons, List.nodup_append] at hd
    simp only [lookupLabel]
    rcases List.mem_cons.1 hx with rfl | hx
    · rw [if_pos (by simpa using hn)]
    · rw [if_neg]
      · exact lookup_of_nodup l hd.2.1 x hx n hn
      · intro hc
        exact hd.2.2 n (by simpa using hc) n (List.mem_flatMap.2 ⟨x, hx, hn⟩) rfl

end Slimcc
