import Verif.Lemmas.StmtGen
import Verif.Lemmas.Labels
/-! The labels of a function are unique. -/
set_option autoImplicit false
namespace Slimcc
open Slimcc.Spec Slimcc.Spec.CTy Slimcc.Ty Slimcc.X86 Slimcc.Gen

theorem nodup1 {α : Type} (a : α) : [a].Nodup := by simp

/-- The parser's names that a statement defines. -/
def defs : SNode → List Nat
  | .block a b => defs a ++ defs b
  | .if_ _ a => defs a
  | .ifElse _ a b => defs a ++ defs b
  | .for_ _ _ _ b brk cont => defs b ++ [cont, brk]
  | .do_ b _ brk cont => defs b ++ [cont, brk]
  | .switch _ _ _ b brk => defs b ++ [brk]
  | .label u => [u]
  | _ => []

theorem defs_resolve (L : List (List Nat × Nat)) : ∀ (n n' : SNode), resolve L n = some n' → defs n' = defs n
  | .goto _, n', h => by
    simp only [resolve] at h
    obtain ⟨_, _, rfl⟩ := Option.map_eq_some_iff.1 h
    rfl
  | .block a b, n', h => by
    simp only [resolve, Option.bind_eq_bind] at h
    obtain ⟨a', ha, h⟩ := Option.bind_eq_some_iff.1 h
    obtain ⟨b', hb, h⟩ := Option.bind_eq_some_iff.1 h
    injection h with h; subst h
    simp only [defs, defs_resolve L _ _ ha, defs_resolve L _ _ hb]
  | .ifElse _ a b, n', h => by
    simp only [resolve, Option.bind_eq_bind] at h
    obtain ⟨a', ha, h⟩ := Option.bind_eq_some_iff.1 h
    obtain ⟨b', hb, h⟩ := Option.bind_eq_some_iff.1 h
    injection h with h; subst h
    simp only [defs, defs_resolve L _ _ ha, defs_resolve L _ _ hb]
  | .if_ _ a, n', h => by
    simp only [resolve, Option.bind_eq_bind] at h
    obtain ⟨a', ha, h⟩ := Option.bind_eq_some_iff.1 h
    injection h with h; subst h
    simp only [defs, defs_resolve L _ _ ha]
  | .for_ _ _ _ a _ _, n', h => by
    simp only [resolve, Option.bind_eq_bind] at h
    obtain ⟨a', ha, h⟩ := Option.bind_eq_some_iff.1 h
    injection h with h; subst h
    simp only [defs, defs_resolve L _ _ ha]
  | .do_ a _ _ _, n', h => by
    simp only [resolve, Option.bind_eq_bind] at h
    obtain ⟨a', ha, h⟩ := Option.bind_eq_some_iff.1 h
    injection h with h; subst h
    simp only [defs, defs_resolve L _ _ ha]
  | .switch _ _ _ a _, n', h => by
    simp only [resolve, Option.bind_eq_bind] at h
    obtain ⟨a', ha, h⟩ := Option.bind_eq_some_iff.1 h
    injection h with h; subst h
    simp only [defs, defs_resolve L _ _ ha]
  | .null, n', h => by injection h with h; subst h; rfl
  | .expr _, n', h => by injection h with h; subst h; rfl
  | .call _, n', h => by injection h with h; subst h; rfl
  | .jump _, n', h => by injection h with h; subst h; rfl
  | .label _, n', h => by injection h with h; subst h; rfl
  | .ret _, n', h => by injection h with h; subst h; rfl

/-- Names are new and used once. -/
def NewIn (l : List Nat) (i j : Nat) : Prop := i ≤ j ∧ l.Nodup ∧ ∀ x ∈ l, i ≤ x ∧ x < j

theorem NewIn.append {a b : List Nat} {i j k : Nat} (h : NewIn a i j) (h' : NewIn b j k) : NewIn (a ++ b) i k := by
  refine ⟨Nat.le_trans h.1 h'.1, List.nodup_append.2 ⟨h.2.1, h'.2.1, fun x hx y hy e => ?_⟩, fun x hx => ?_⟩
  · have := h.2.2 x hx; have := h'.2.2 y hy; omega
  · rcases List.mem_append.1 hx with hx | hx
    · have := h.2.2 x hx; have := h'.1; omega
    · have := h'.2.2 x hx; have := h.1; omega

theorem parse_defs (opt : Bool) (Γ : Nat → CTy) : ∀ (s : Stmt) (nm : List Nat) (jc : List JumpCtx) (p : PSt) (n : SNode) (p' : PSt), parseStmt opt Γ s nm jc p = some (n, p') →
    NewIn (defs n) p.id p'.id
  | .skip, nm, jc, p, n, p', h => by
    simp only [parseStmt, Option.some.injEq, Prod.mk.injEq] at h
    obtain ⟨rfl, rfl⟩ := h
    exact ⟨Nat.le_refl _, List.nodup_nil, fun x h => (nomatch h)⟩
  | .expr _, nm, jc, p, n, p', h => by
    simp only [parseStmt, Option.some.injEq, Prod.mk.injEq] at h
    obtain ⟨rfl, rfl⟩ := h
    exact ⟨Nat.le_refl _, List.nodup_nil, fun x h => (nomatch h)⟩
  | .call _, nm, jc, p, n, p', h => by
    simp only [parseStmt, Option.some.injEq, Prod.mk.injEq] at h
    obtain ⟨rfl, rfl⟩ := h
    exact ⟨Nat.le_refl _, List.nodup_nil, fun x h => (nomatch h)⟩
  | .goto _, nm, jc, p, n, p', h => by
    simp only [parseStmt, Option.some.injEq, Prod.mk.injEq] at h
    obtain ⟨rfl, rfl⟩ := h
    exact ⟨Nat.le_refl _, List.nodup_nil, fun x h => (nomatch h)⟩
  | .ret _, nm, jc, p, n, p', h => by
    simp only [parseStmt, Option.some.injEq, Prod.mk.injEq] at h
    obtain ⟨rfl, rfl⟩ := h
    exact ⟨Nat.le_refl _, List.nodup_nil, fun x h => (nomatch h)⟩
  | .brk _, nm, jc, p, n, p', h => by
    simp only [parseStmt, Option.bind_eq_bind] at h
    obtain ⟨_, _, h⟩ := Option.bind_eq_some_iff.1 h
    simp only [Option.some.injEq, Prod.mk.injEq] at h
    obtain ⟨rfl, rfl⟩ := h
    exact ⟨Nat.le_refl _, List.nodup_nil, fun x h => (nomatch h)⟩
  | .cont _, nm, jc, p, n, p', h => by
    simp only [parseStmt, Option.bind_eq_bind] at h
    obtain ⟨_, _, h⟩ := Option.bind_eq_some_iff.1 h
    simp only [Option.some.injEq, Prod.mk.injEq] at h
    obtain ⟨rfl, rfl⟩ := h
    exact ⟨Nat.le_refl _, List.nodup_nil, fun x h => (nomatch h)⟩
  | .seq a b, nm, jc, p, n, p', h => by
    simp only [parseStmt, Option.bind_eq_bind] at h
    obtain ⟨⟨na, q⟩, ha, h⟩ := Option.bind_eq_some_iff.1 h
    obtain ⟨⟨nb, r⟩, hb, h⟩ := Option.bind_eq_some_iff.1 h
    simp only [Option.some.injEq, Prod.mk.injEq] at h
    obtain ⟨rfl, rfl⟩ := h
    exact (parse_defs opt Γ a _ _ _ _ _ ha).append (parse_defs opt Γ b _ _ _ _ _ hb)
  | .if_ c a, nm, jc, p, n, p', h => by
    simp only [parseStmt, Option.bind_eq_bind] at h
    obtain ⟨⟨na, q⟩, ha, h⟩ := Option.bind_eq_some_iff.1 h
    simp only [Option.some.injEq, Prod.mk.injEq] at h
    obtain ⟨rfl, rfl⟩ := h
    exact (parse_defs opt Γ a _ _ _ na _ ha : NewIn (defs na) _ _)
  | .ifElse c a b, nm, jc, p, n, p', h => by
    simp only [parseStmt, Option.bind_eq_bind] at h
    obtain ⟨⟨na, q⟩, ha, h⟩ := Option.bind_eq_some_iff.1 h
    obtain ⟨⟨nb, r⟩, hb, h⟩ := Option.bind_eq_some_iff.1 h
    simp only [Option.some.injEq, Prod.mk.injEq] at h
    obtain ⟨rfl, rfl⟩ := h
    exact (parse_defs opt Γ a _ _ _ _ _ ha).append (parse_defs opt Γ b _ _ _ _ _ hb)
  | .loop i c x b, nm, jc, p, n, p', h => by
    simp only [parseStmt, Option.bind_eq_bind] at h
    obtain ⟨⟨na, q⟩, ha, h⟩ := Option.bind_eq_some_iff.1 h
    simp only [Option.some.injEq, Prod.mk.injEq] at h
    obtain ⟨rfl, rfl⟩ := h
    obtain ⟨h1, h2, h3⟩ := parse_defs opt Γ b _ _ _ _ _ ha
    dsimp only at h1 h3
    refine ⟨by omega, List.nodup_append.2 ⟨h2, by simp, fun x hx y hy e => ?_⟩, fun x hx => ?_⟩
    · have := h3 x hx
      simp at hy; omega
    · simp only [defs, List.mem_append] at hx
      rcases hx with hx | hx
      · have := h3 x hx; omega
      · simp at hx; omega
  | .dowhile b c, nm, jc, p, n, p', h => by
    simp only [parseStmt, Option.bind_eq_bind] at h
    obtain ⟨⟨na, q⟩, ha, h⟩ := Option.bind_eq_some_iff.1 h
    simp only [Option.some.injEq, Prod.mk.injEq] at h
    obtain ⟨rfl, rfl⟩ := h
    obtain ⟨h1, h2, h3⟩ := parse_defs opt Γ b _ _ _ _ _ ha
    dsimp only at h1 h3
    refine ⟨by omega, List.nodup_append.2 ⟨h2, by simp, fun x hx y hy e => ?_⟩, fun x hx => ?_⟩
    · have := h3 x hx
      simp at hy; omega
    · simp only [defs, List.mem_append] at hx
      rcases hx with hx | hx
      · have := h3 x hx; omega
      · simp at hx; omega
  | .switch e b, nm, jc, p, n, p', h => by
    simp only [parseStmt, Option.bind_eq_bind] at h
    obtain ⟨⟨na, q⟩, ha, h⟩ := Option.bind_eq_some_iff.1 h
    simp only [Option.some.injEq, Prod.mk.injEq] at h
    obtain ⟨rfl, rfl⟩ := h
    obtain ⟨h1, h2, h3⟩ := parse_defs opt Γ b _ _ _ _ _ ha
    dsimp only at h1 h3
    refine ⟨by dsimp only; omega, List.nodup_append.2 ⟨h2, by simp, fun x hx y hy e => ?_⟩, fun x hx => ?_⟩
    · have := h3 x hx
      simp at hy; omega
    · simp only [defs, List.mem_append] at hx
      dsimp only
      rcases hx with hx | hx
      · have := h3 x hx; omega
      · simp at hx; omega
  | .lab [] s, nm, jc, p, n, p', h => parse_defs opt Γ s _ _ _ _ _ h
  | .lab (x :: ls) s, nm, jc, p, n, p', h => by
    simp only [parseStmt, Option.bind_eq_bind] at h
    obtain ⟨q, hq, h⟩ := Option.bind_eq_some_iff.1 h
    obtain ⟨⟨ns, r⟩, ha, h⟩ := Option.bind_eq_some_iff.1 h
    simp only [Option.some.injEq, Prod.mk.injEq] at h
    obtain ⟨rfl, rfl⟩ := h
    obtain ⟨a1, _⟩ := labelStmt_ok opt jc _ _ _ _ hq
    have h0 := parse_defs opt Γ s _ _ _ _ _ ha
    dsimp only at h0
    rw [a1] at h0
    exact NewIn.append (j := p.id + 1) ⟨by omega, nodup1 _, fun x hx => by rcases List.mem_singleton.1 hx with rfl; omega⟩ h0

/-! ### The code -/

/-- The labels of a piece of code: names in `N` and new numbered ones. -/
def FreshS (N : List Nat) (g : G) : Prop :=
  ∀ c, c ≤ (g c).2 ∧ (labs (g c).1.code).Nodup ∧ ∀ l ∈ labs (g c).1.code, (∃ u ∈ N, l = .name u) ∨ ∃ n, lnum l = some n ∧ c ≤ n ∧ n < (g c).2

/-- Names in `N`, labels in `S` with the number `i`, and new ones. -/
def FreshX (i : Nat) (N : List Nat) (S : List Label) (g : G) : Prop :=
  ∀ c, i < c → c ≤ (g c).2 ∧ (labs (g c).1.code).Nodup ∧
    ∀ l ∈ labs (g c).1.code, (∃ u ∈ N, l = .name u) ∨ l ∈ S ∨ ∃ n, lnum l = some n ∧ c ≤ n ∧ n < (g c).2

theorem Fresh.s {g : G} (h : Fresh g) : FreshS [] g := fun c => ⟨(h c).1, (h c).2.1, fun l hl => Or.inr ((h c).2.2 l hl)⟩

theorem FreshS.x {g : G} {N : List Nat} (h : FreshS N g) (i : Nat) : FreshX i N [] g :=
  fun c _ => ⟨(h c).1, (h c).2.1, fun l hl => ((h c).2.2 l hl).imp_right Or.inr⟩

theorem freshX_lines {i : Nat} {N : List Nat} {S : List Label} (l : List Line) (h : (labs l).Nodup) (hl : ∀ x ∈ labs l, (∃ u ∈ N, x = .name u) ∨ x ∈ S) : FreshX i N S (lines l) :=
  fun c _ => ⟨Nat.le_refl _, h, fun x hx => (hl x hx).imp_right Or.inl⟩

theorem freshX_seq {i : Nat} {M N : List Nat} {S T : List Label} {a b : G} (ha : FreshX i M S a) (hb : FreshX i N T b) (hS : ∀ l ∈ S, lnum l = some i) (hT : ∀ l ∈ T, lnum l = some i)
    (hd : ∀ l ∈ S, l ∉ T) (hn : ∀ x ∈ M, x ∉ N) : FreshX i (M ++ N) (S ++ T) (a ;; b) := by
  intro c hc
  obtain ⟨a1, a2, a3⟩ := ha c hc
  obtain ⟨b1, b2, b3⟩ := hb (a c).2 (by omega)
  refine ⟨Nat.le_trans a1 b1, ?_, ?_⟩
  · show (labs ((a c).1.code ++ (b (a c).2).1.code)).Nodup
    rw [labs_append, List.nodup_append]
    refine ⟨a2, b2, fun l hl m hm e => ?_⟩
    subst e
    rcases a3 l hl with ⟨u, h1, e1⟩ | h1 | ⟨n, h1, h2, h3⟩ <;> rcases b3 l hm with ⟨u', h4, e4⟩ | h4 | ⟨k, h4, h5, h6⟩
    · rw [e1] at e4; injection e4 with e4; subst e4; exact hn u h1 h4
    · have := hT l h4; rw [e1] at this; cases this
    · rw [e1] at h4; cases h4
    · have := hS l h1; rw [e4] at this; cases this
    · exact hd l h1 h4
    · have := hS l h1; rw [h4] at this; injection this; omega
    · rw [e4] at h1; cases h1
    · have := hT l h4; rw [h1] at this; injection this; omega
    · rw [h1] at h4; injection h4; omega
  · intro l hl
    have hl' : l ∈ labs ((a c).1.code ++ (b (a c).2).1.code) := hl
    rw [labs_append, List.mem_append] at hl'
    show (∃ u ∈ M ++ N, l = .name u) ∨ l ∈ S ++ T ∨ ∃ n, lnum l = some n ∧ c ≤ n ∧ n < (b (a c).2).2
    rcases hl' with h | h
    · rcases a3 l h with ⟨u, h1, e⟩ | h1 | ⟨n, h1, h2, h3⟩
      · exact Or.inl ⟨u, List.mem_append_left _ h1, e⟩
      · exact Or.inr (Or.inl (List.mem_append_left _ h1))
      · exact Or.inr (Or.inr ⟨n, h1, h2, by omega⟩)
    · rcases b3 l h with ⟨u, h1, e⟩ | h1 | ⟨n, h1, h2, h3⟩
      · exact Or.inl ⟨u, List.mem_append_right _ h1, e⟩
      · exact Or.inr (Or.inl (List.mem_append_right _ h1))
      · exact Or.inr (Or.inr ⟨n, h1, by omega, h3⟩)

theorem freshS_with {N : List Nat} {f : Nat → G} {S : Nat → List Label} (h : ∀ i, FreshX i N (S i) (f i)) (hS : ∀ i, ∀ l ∈ S i, lnum l = some i) : FreshS N (withLabel f) := by
  intro c
  obtain ⟨a1, a2, a3⟩ := h c (c + 1) (by omega)
  refine ⟨by show c ≤ (f c (c + 1)).2; omega, a2, fun l hl => ?_⟩
  rcases a3 l hl with h1 | h1 | ⟨n, h1, h2, h3⟩
  · exact Or.inl h1
  · exact Or.inr ⟨c, hS c l h1, Nat.le_refl _, by show c < (f c (c + 1)).2; omega⟩
  · exact Or.inr ⟨n, h1, by omega, h3⟩

theorem freshS_seq {M N : List Nat} {a b : G} (ha : FreshS M a) (hb : FreshS N b) (hn : ∀ x ∈ M, x ∉ N) : FreshS (M ++ N) (a ;; b) := by
  intro c
  cases c with
  | zero =>
    obtain ⟨a1, a2, a3⟩ := ha 0
    obtain ⟨b1, b2, b3⟩ := hb (a 0).2
    refine ⟨Nat.zero_le _, ?_, ?_⟩
    · show (labs ((a 0).1.code ++ (b (a 0).2).1.code)).Nodup
      rw [labs_append, List.nodup_append]
      refine ⟨a2, b2, fun l hl m hm e => ?_⟩
      subst e
      rcases a3 l hl with ⟨u, h1, e1⟩ | ⟨n, h1, h2, h3⟩ <;> rcases b3 l hm with ⟨u', h4, e4⟩ | ⟨k, h4, h5, h6⟩
      · rw [e1] at e4; injection e4 with e4; subst e4; exact hn u h1 h4
      · rw [e1] at h4; cases h4
      · rw [e4] at h1; cases h1
      · rw [h1] at h4; injection h4; omega
    · intro l hl
      have hl' : l ∈ labs ((a 0).1.code ++ (b (a 0).2).1.code) := hl
      rw [labs_append, List.mem_append] at hl'
      show (∃ u ∈ M ++ N, l = .name u) ∨ ∃ n, lnum l = some n ∧ 0 ≤ n ∧ n < (b (a 0).2).2
      rcases hl' with h | h
      · rcases a3 l h with ⟨u, h1, e⟩ | ⟨n, h1, h2, h3⟩
        · exact Or.inl ⟨u, List.mem_append_left _ h1, e⟩
        · exact Or.inr ⟨n, h1, h2, by omega⟩
      · rcases b3 l h with ⟨u, h1, e⟩ | ⟨n, h1, h2, h3⟩
        · exact Or.inl ⟨u, List.mem_append_right _ h1, e⟩
        · exact Or.inr ⟨n, h1, by omega, h3⟩
  | succ c =>
    obtain ⟨h1, h2, h3⟩ := freshX_seq (ha.x 0) (hb.x 0) (fun l h => (nomatch h)) (fun l h => (nomatch h)) (fun l h => (nomatch h)) hn (c + 1) (by omega)
    exact ⟨h1, h2, fun l hl => (h3 l hl).imp_right fun h => h.resolve_left fun h => (nomatch h)⟩

theorem labs_switchCode (sz : Nat) (cases : List CaseRange) (d : Option Nat) (brk : Nat) : labs (switchCode sz cases d brk) = [] := by
  have h : labs (cases.flatMap (caseCode sz d)) = [] := by
    induction cases with
    | nil => rfl
    | cons cr l ih =>
      rw [List.flatMap_cons, labs_append, ih, List.append_nil]
      unfold caseCode
      split
      · rfl
      · split
        · rfl
        · split
          · rw [labs_append, labs_ins]; rfl
          · split
            · rw [labs_append, labs_ins]; rfl
            · rw [labs_append, labs_ins]; rfl
  unfold switchCode
  rw [labs_append, labs_append, h]
  cases d <;> rfl

section
variable (hs : HostShift) (opt : Bool) (Γ : Nat → CTy) (loc : Nat → MemOp) (stk : Nat) (cc : CallS → G) (rty : CTy) (hcc : ∀ c, Fresh (cc c)) (rtn : Nat)

theorem optVoid_fresh (o : Option Expr) : Fresh (optVoid hs opt Γ loc stk o) := by
  cases o with
  | none => exact fresh_lines _ rfl
  | some e => exact gen_fresh _ _ _ _ _ _ _

theorem optCond_fresh (l : Label) (o : Option Expr) : Fresh (match o with | none => lines [] | some c => compileCond hs opt Γ loc stk false l c) := by
  cases o with
  | none => exact fresh_lines _ rfl
  | some e => exact gen_fresh _ _ _ _ _ _ _

theorem cond_fresh (j : Bool) (l : Label) (e : Expr) : Fresh (compileCond hs opt Γ loc stk j l e) := gen_fresh _ _ _ _ _ _ _
theorem expr_fresh (e : Expr) : Fresh (compileExpr hs opt Γ loc stk e) := gen_fresh _ _ _ _ _ _ _

include hcc in
theorem genStmt_fresh : ∀ n : SNode, (defs n).Nodup → FreshS (defs n) (genStmt hs opt Γ loc stk cc rty rtn n)
  | .null, _ => (fresh_lines _ rfl).s
  | .expr _, _ => (gen_fresh _ _ _ _ _ _ _).s
  | .call c, _ => (hcc c).s
  | .jump _, _ => (fresh_lines _ rfl).s
  | .goto _, _ => (fresh_lines _ rfl).s
  | .ret none, _ => (fresh_lines _ rfl).s
  | .ret (some _), _ => (fresh_seq (gen_fresh _ _ _ _ _ _ _) (fresh_lines _ rfl)).s
  | .label u, _ => fun c => ⟨Nat.le_refl _, by simp [genStmt, lines, labs, lab?], fun l hl => Or.inl ⟨u, by simp [defs], by simpa [genStmt, lines, labs, lab?] using hl⟩⟩
  | .block a b, h => by
    obtain ⟨h1, h2, h3⟩ := List.nodup_append.1 h
    exact freshS_seq (genStmt_fresh a h1) (genStmt_fresh b h2) fun x hx hy => h3 x hx x hy rfl
  | .if_ c a, h => by
    refine freshS_with (S := fun i => [.else_ i]) (fun i => ?_) (fun i l hl => by simp at hl; subst hl; rfl)
    have := freshX_seq (S := []) (T := [.else_ i]) (((cond_fresh hs opt Γ loc stk _ _ _).s : FreshS [] (compileCond hs opt Γ loc stk false (.else_ i) c)).x i)
      (freshX_seq (S := []) (T := [.else_ i]) ((genStmt_fresh a h).x i) (freshX_lines (N := []) (S := [.else_ i]) [.lab (.else_ i)] (by simp [labs, lab?]) (by simp [labs, lab?]))
        (by simp) (by simp [lnum]) (by simp) (by simp)) (by simp) (by simp [lnum]) (by simp) (by simp)
    simp only [List.nil_append, List.append_nil, List.singleton_append, defs] at this ⊢
    exact this
  | .ifElse c a b, h => by
    obtain ⟨h1, h2, h3⟩ := List.nodup_append.1 h
    refine freshS_with (S := fun i => [.else_ i, .end_ i]) (fun i => ?_) (fun i l hl => by simp at hl; rcases hl with rfl | rfl <;> rfl)
    have := freshX_seq (S := []) (T := [.else_ i, .end_ i]) (((cond_fresh hs opt Γ loc stk _ _ _).s : FreshS [] (compileCond hs opt Γ loc stk false (.else_ i) c)).x i)
      (freshX_seq (S := []) (T := [.else_ i, .end_ i]) ((genStmt_fresh a h1).x i)
        (freshX_seq (S := [.else_ i]) (T := [.end_ i]) (freshX_lines (N := []) (S := [.else_ i]) [.jmp (.end_ i), .lab (.else_ i)] (nodup1 _) (by simp [labs, lab?]))
          (freshX_seq (S := []) (T := [.end_ i]) ((genStmt_fresh b h2).x i) (freshX_lines (N := []) (S := [.end_ i]) [.lab (.end_ i)] (by simp [labs, lab?]) (by simp [labs, lab?]))
            (by simp) (by simp [lnum]) (by simp) (by simp))
          (by simp [lnum]) (by simp [lnum]) (by simp) (by simp))
        (by simp) (by simp [lnum]) (by simp) (fun x hx hy => by simp at hy; exact h3 x hx x hy rfl)) (by simp) (by simp [lnum]) (by simp) (by simp)
    simp only [List.nil_append, List.append_nil, List.singleton_append, List.append_assoc, defs] at this ⊢
    exact this
  | .for_ ini cnd inc b brk cont, h => by
    obtain ⟨h1, h2, h3⟩ := List.nodup_append.1 h
    have hne : cont ≠ brk := by simpa using h2
    refine freshS_with (S := fun i => [.begin i]) (fun i => ?_) (fun i l hl => by simp at hl; subst hl; rfl)
    have := freshX_seq (S := []) (T := [.begin i]) (((optVoid_fresh hs opt Γ loc stk ini).s).x i)
      (freshX_seq (S := [.begin i]) (T := []) (freshX_lines (N := []) (S := [.begin i]) [.lab (.begin i)] (by simp [labs, lab?]) (by simp [labs, lab?]))
        (freshX_seq (S := []) (T := []) (((optCond_fresh hs opt Γ loc stk (.name brk) cnd).s).x i)
          (freshX_seq (S := []) (T := []) ((genStmt_fresh b h1).x i)
            (freshX_seq (S := []) (T := []) (freshX_lines (N := [cont]) (S := []) [.lab (.name cont)] (by simp [labs, lab?]) (by simp [labs, lab?]))
              (freshX_seq (S := []) (T := []) (((optVoid_fresh hs opt Γ loc stk inc).s).x i)
                (freshX_lines (N := [brk]) (S := []) [.jmp (.begin i), .lab (.name brk)] (nodup1 _) (by simp [labs, lab?]))
                (by simp) (by simp) (by simp) (by simp))
              (by simp) (by simp) (by simp) (by simpa using hne))
            (by simp) (by simp) (by simp) (fun x hx hy => by simp at hy; exact h3 x hx x (by simpa using hy) rfl))
          (by simp) (by simp) (by simp) (by simp))
        (by simp [lnum]) (by simp) (by simp) (by simp))
      (by simp) (by simp [lnum]) (by simp) (by simp)
    simp only [List.nil_append, List.append_nil, List.singleton_append, List.append_assoc, defs] at this ⊢
    exact this
  | .do_ b cnd brk cont, h => by
    obtain ⟨h1, h2, h3⟩ := List.nodup_append.1 h
    have hne : cont ≠ brk := by simpa using h2
    refine freshS_with (S := fun i => [.begin i]) (fun i => ?_) (fun i l hl => by simp at hl; subst hl; rfl)
    have := freshX_seq (S := [.begin i]) (T := []) (freshX_lines (N := []) (S := [.begin i]) [.lab (.begin i)] (by simp [labs, lab?]) (by simp [labs, lab?]))
        (freshX_seq (S := []) (T := []) ((genStmt_fresh b h1).x i)
            (freshX_seq (S := []) (T := []) (freshX_lines (N := [cont]) (S := []) [.lab (.name cont)] (by simp [labs, lab?]) (by simp [labs, lab?]))
              (freshX_seq (S := []) (T := []) (((cond_fresh hs opt Γ loc stk _ _ _).s : FreshS [] (compileCond hs opt Γ loc stk true (.begin i) cnd)).x i)
                (freshX_lines (N := [brk]) (S := []) [.lab (.name brk)] (by simp [labs, lab?]) (by simp [labs, lab?]))
                (by simp) (by simp) (by simp) (by simp))
              (by simp) (by simp) (by simp) (by simpa using hne))
            (by simp) (by simp) (by simp) (fun x hx hy => by simp at hy; exact h3 x hx x (by simpa using hy) rfl))
      (by simp [lnum]) (by simp) (by simp) (by simp)
    simp only [List.nil_append, List.append_nil, List.singleton_append, List.append_assoc, defs] at this ⊢
    exact this
  | .switch e cs d b brk, h => by
    obtain ⟨h1, h2, h3⟩ := List.nodup_append.1 h
    have := freshS_seq (expr_fresh hs opt Γ loc stk e).s
      (freshS_seq ((fresh_lines _ (labs_switchCode (if (ity (e.ty Γ)).size = 8 then 8 else 4) cs d brk)).s)
        (freshS_seq (genStmt_fresh b h1) ((fun c => ⟨Nat.le_refl _, by simp [lines, labs, lab?], fun l hl => Or.inl ⟨brk, by simp, by simpa [lines, labs, lab?] using hl⟩⟩ : FreshS [brk] (lines [.lab (.name brk)])))
          (fun x hx hy => h3 x hx x hy rfl)) (by simp)) (by simp)
    simp only [List.nil_append, List.append_nil, List.singleton_append, List.append_assoc, defs] at this ⊢
    exact this

include hcc in
theorem compileBody_nodup (n : SNode) (h : (defs n).Nodup) (c : Nat) : (labs (compileBody hs opt Γ loc stk cc rty n c).1.code).Nodup := by
  have : FreshS (defs n ++ []) (compileBody hs opt Γ loc stk cc rty n) := by
    refine freshS_with (S := fun i => [.rtn i]) (fun i => ?_) (fun i l hl => by simp at hl; subst hl; rfl)
    exact freshX_seq (S := []) (T := [.rtn i]) ((genStmt_fresh hs opt Γ loc stk cc rty hcc i n h).x i)
      (freshX_lines (N := []) (S := [.rtn i]) [.lab (.rtn i)] (by simp [labs, lab?]) (by simp [labs, lab?])) (by simp) (by simp [lnum]) (by simp) (by simp)
  exact (this c).2.1

include hcc in
/-- The code of a function has no label twice. -/
theorem compileBody_unique (n : SNode) (h : (defs n).Nodup) (c : Nat) : UniqueLabels (compileBody hs opt Γ loc stk cc rty n c).1.code :=
  unique_of_nodup _ (compileBody_nodup hs opt Γ loc stk cc rty hcc n h c)

end
end Slimcc
