import Verif.Lemmas.InitHolds

/-!
The assignments that `create_lvar_init` makes are those of the nodes that can be
reached and hold an expression.
-/

set_option autoImplicit false

namespace Slimcc.InitL

open InitList InitSpec

/-- The node at `r` below `p` is an expression, and the way to it leads to it. -/
structure Rel (c : Ty) (σ : Store) (p r : Path) (v : Val) : Prop where
  at_ : ∃ (d : Ty), c.at_ r = some d
  kind : (σ (p ++ r)).kind = .expr
  pay : (σ (p ++ r)).pay = .expr v
  way : ∀ (u : Path) (i : Nat) (s : Path), r = u ++ i :: s → (σ (p ++ u)).kind = .list ∧
    ∀ (d : Ty), c.at_ u = some d → isUnion d = true → (σ (p ++ u)).pay = .mem i

/-- Nodes are of kinds that agree with their types. -/
def Kinds (c : Ty) (σ : Store) (p : Path) : Prop :=
  ∀ (u : Path) (d : Ty), c.at_ u = some d →
    ((σ (p ++ u)).kind = .expr → (∃ v, (σ (p ++ u)).pay = .expr v) ∧ ∀ n b, d ≠ .arr n b) ∧
    ((σ (p ++ u)).kind = .list → ∀ k, d ≠ .leaf k)

theorem kinds_child (c d : Ty) (σ : Store) (p : Path) (i : Nat) (h : c.child i = some d) (hk : Kinds c σ p) :
    Kinds d σ (p ++ [i]) := by
  intro u e he
  have := hk (i :: u) e (by simp [Ty.at_, h, he])
  simpa using this

theorem rel_nil (c : Ty) (σ : Store) (p : Path) (v : Val) :
    Rel c σ p [] v ↔ (σ p).kind = .expr ∧ (σ p).pay = .expr v := by
  constructor
  · intro h; exact ⟨by simpa using h.kind, by simpa using h.pay⟩
  · rintro ⟨h1, h2⟩
    exact ⟨⟨c, rfl⟩, by simpa using h1, by simpa using h2, by intro u i s hu; cases u <;> cases hu⟩

theorem rel_cons (c : Ty) (σ : Store) (p : Path) (i : Nat) (r : Path) (v : Val) :
    Rel c σ p (i :: r) v ↔ (σ p).kind = .list ∧ (isUnion c = true → (σ p).pay = .mem i) ∧
      ∃ (d : Ty), c.child i = some d ∧ Rel d σ (p ++ [i]) r v := by
  constructor
  · intro h
    obtain ⟨hl, hu⟩ := h.way [] i r rfl
    obtain ⟨e, he⟩ := h.at_
    refine ⟨by simpa using hl, fun hc => by simpa using hu c rfl hc, ?_⟩
    simp only [Ty.at_] at he
    cases hc : c.child i with
    | none => rw [hc] at he; cases he
    | some d =>
      rw [hc] at he
      refine ⟨d, rfl, ⟨⟨e, he⟩, by simpa using h.kind, by simpa using h.pay, ?_⟩⟩
      intro u j s hr
      obtain ⟨h1, h2⟩ := h.way (i :: u) j s (by rw [hr]; rfl)
      refine ⟨by simpa using h1, ?_⟩
      intro e he hx
      simpa using h2 e (by simp [Ty.at_, hc, he]) hx
  · rintro ⟨hl, hu, d, hd, h⟩
    obtain ⟨e, he⟩ := h.at_
    refine ⟨⟨e, by simp [Ty.at_, hd, he]⟩, by simpa using h.kind, by simpa using h.pay, ?_⟩
    intro u j s hr
    cases u with
    | nil =>
      simp only [List.nil_append, List.cons.injEq] at hr
      obtain ⟨rfl, rfl⟩ := hr
      refine ⟨by simpa using hl, ?_⟩
      intro e' he' hx
      simp only [Ty.at_, Option.some.injEq] at he'
      subst he'
      simpa using hu hx
    | cons x u =>
      simp only [List.cons_append, List.cons.injEq] at hr
      obtain ⟨rfl, hr⟩ := hr
      obtain ⟨h1, h2⟩ := h.way u j s hr
      refine ⟨by simpa using h1, ?_⟩
      intro e' he' hx
      simp only [Ty.at_, hd] at he'
      simpa using h2 e' he' hx

theorem off_of (p : Path) (i j : Nat) (r s : Path) (v w : Val) (h : i ≠ j) :
    Off (p ++ i :: r, v) (p ++ j :: s, w) := by
  constructor
  · rintro ⟨t, ht⟩
    simp at ht
    exact h ht.1
  · rintro ⟨t, ht⟩
    simp at ht
    exact h ht.1.symm

/-- What `create` is to give. -/
def Creates (c : Ty) (p : Path) (σ : Store) : Prop :=
  ∃ (A : List (Path × Val)), create c p σ = .ok A ∧
    (∀ (q : Path) (v : Val), (q, v) ∈ A ↔ ∃ (r : Path), q = p ++ r ∧ Rel c σ p r v) ∧ A.Pairwise Off

theorem createArr_ok (b : Ty) (p : Path) (σ : Store) (n : Nat)
    (h : ∀ (i : Nat), i < n → Creates b (p ++ [i]) σ) :
    ∃ (A : List (Path × Val)), createArr (fun i => create b (p ++ [i]) σ) n = .ok A ∧
      (∀ (q : Path) (v : Val), (q, v) ∈ A ↔
        ∃ (i : Nat) (r : Path), i < n ∧ q = p ++ i :: r ∧ Rel b σ (p ++ [i]) r v) ∧ A.Pairwise Off := by
  induction n with
  | zero => exact ⟨[], by simp [createArr], by simp, by simp⟩
  | succ n ih =>
    obtain ⟨A, hA, hm, hp⟩ := ih (fun i hi => h i (by omega))
    obtain ⟨B, hB, hm', hp'⟩ := h n (by omega)
    refine ⟨A ++ B, by simp [createArr, hA, hB, bind, Except.bind], ?_, ?_⟩
    · intro q v
      rw [List.mem_append, hm, hm']
      constructor
      · rintro (⟨i, r, h1, h2, h3⟩ | ⟨r, h1, h2⟩)
        · exact ⟨i, r, by omega, h2, h3⟩
        · exact ⟨n, r, by omega, by simpa using h1, h2⟩
      · rintro ⟨i, r, h1, h2, h3⟩
        by_cases hi : i = n
        · subst hi; right; exact ⟨r, by simpa using h2, h3⟩
        · left; exact ⟨i, r, by omega, h2, h3⟩
    · rw [List.pairwise_append]
      refine ⟨hp, hp', ?_⟩
      rintro ⟨q, v⟩ hq ⟨q', v'⟩ hq'
      obtain ⟨i, r, h1, rfl, _⟩ := (hm q v).1 hq
      obtain ⟨r', rfl, _⟩ := (hm' q' v').1 hq'
      have := off_of p i n r r' v v' (by omega)
      simpa [Off] using this

mutual
theorem create_ok (c : Ty) (p : Path) (σ : Store) (hk : Kinds c σ p) : Creates c p σ := by
  obtain ⟨h1, h2⟩ := hk [] c rfl
  simp only [List.append_nil] at h1 h2
  cases hkind : (σ p).kind with
  | none =>
    refine ⟨[], by rw [create.eq_def]; simp [hkind], ?_, by simp⟩
    intro q v
    simp only [List.not_mem_nil, false_iff]
    rintro ⟨r, rfl, hr⟩
    cases r with
    | nil => rw [rel_nil, hkind] at hr; cases hr.1
    | cons i r => rw [rel_cons, hkind] at hr; cases hr.1
  | expr =>
    obtain ⟨⟨v, hv⟩, hn⟩ := h1 hkind
    refine ⟨[(p, v)], ?_, ?_, by simp⟩
    · rw [create.eq_def]
      cases c with
      | arr n b => exact absurd rfl (hn n b)
      | leaf k => simp [hkind, hv]
      | agg u ms => simp [hkind, hv]
    · intro q w
      simp only [List.mem_singleton, Prod.mk.injEq]
      constructor
      · rintro ⟨rfl, rfl⟩
        exact ⟨[], by simp, by rw [rel_nil]; exact ⟨hkind, hv⟩⟩
      · rintro ⟨r, rfl, hr⟩
        cases r with
        | nil =>
          rw [rel_nil, hv] at hr
          simp only [Pay.expr.injEq] at hr
          exact ⟨by simp, hr.2.symm⟩
        | cons i r => rw [rel_cons, hkind] at hr; cases hr.1
  | list =>
    match c, hk, h2 with
    | .leaf k, hk, h2 => exact absurd rfl (h2 hkind k)
    | .arr n b, hk, h2 =>
      obtain ⟨A, hA, hm, hp⟩ := createArr_ok b p σ n (fun i hi =>
        create_ok b (p ++ [i]) σ (kinds_child (.arr n b) b σ p i (by simp [Ty.child, hi]) hk))
      refine ⟨A, by rw [create.eq_def]; simp [hkind, hA], ?_, hp⟩
      intro q v
      rw [hm]
      constructor
      · rintro ⟨i, r, hi, rfl, hr⟩
        exact ⟨i :: r, rfl, by
          rw [rel_cons]; exact ⟨hkind, by simp [isUnion], b, by simp [Ty.child, hi], hr⟩⟩
      · rintro ⟨r, rfl, hr⟩
        cases r with
        | nil => rw [rel_nil, hkind] at hr; cases hr.1
        | cons i r =>
          rw [rel_cons] at hr
          obtain ⟨_, _, d, hd, hr⟩ := hr
          simp only [Ty.child] at hd
          split at hd
          · rename_i hi
            simp only [Option.some.injEq] at hd
            subst hd
            exact ⟨i, r, hi, rfl, hr⟩
          · cases hd
    | .agg u ms, hk, h2 =>
      obtain ⟨A, hA, hm, hp⟩ := createMems_ok u ms p σ 0 (fun i c hc => by
        have := kinds_child (.agg u ms) c σ p i hc hk
        simpa using this)
      refine ⟨A, by rw [create.eq_def]; simp [hkind, hA], ?_, hp⟩
      intro q v
      rw [hm]
      constructor
      · rintro ⟨i, d, r, hi, hu, rfl, hr⟩
        refine ⟨i :: r, by simp, ?_⟩
        rw [rel_cons]
        exact ⟨hkind, by simpa [isUnion] using hu, d, hi, by simpa using hr⟩
      · rintro ⟨r, rfl, hr⟩
        cases r with
        | nil => rw [rel_nil, hkind] at hr; cases hr.1
        | cons i r =>
          rw [rel_cons] at hr
          obtain ⟨_, hu, d, hd, hr⟩ := hr
          exact ⟨i, d, r, hd, by simpa [isUnion] using hu, by simp, by simpa using hr⟩
theorem createMems_ok (u : Bool) (ms : Mems) (p : Path) (σ : Store) (k : Nat)
    (hk : ∀ (i : Nat) (c : Ty), ms.get i = some c → Kinds c σ (p ++ [k + i])) :
    ∃ (A : List (Path × Val)), createMems u ms p σ k = .ok A ∧
      (∀ (q : Path) (v : Val), (q, v) ∈ A ↔
        ∃ (i : Nat) (c : Ty) (r : Path), ms.get i = some c ∧ (u = true → (σ p).pay = .mem (k + i)) ∧
          q = p ++ (k + i) :: r ∧ Rel c σ (p ++ [k + i]) r v) ∧ A.Pairwise Off := by
  match ms, hk with
  | .nil, hk => exact ⟨[], by simp [createMems], by simp [Mems.get], by simp⟩
  | .cons nm t rest, hk =>
    obtain ⟨B, hB, hm', hp'⟩ := createMems_ok u rest p σ (k + 1) (fun i c hc => by
      have := hk (i + 1) c hc
      rwa [show k + (i + 1) = k + 1 + i by omega] at this)
    have hfst : ∃ (A : List (Path × Val)),
        (if u && (σ p).pay != .mem k then pure [] else create t (p ++ [k]) σ : M (List (Path × Val))) = .ok A ∧
        (∀ (q : Path) (v : Val), (q, v) ∈ A ↔ ∃ (r : Path), (u = true → (σ p).pay = .mem k) ∧
          q = p ++ k :: r ∧ Rel t σ (p ++ [k]) r v) ∧ A.Pairwise Off := by
      by_cases hu : (u && (σ p).pay != .mem k) = true
      · refine ⟨[], by rw [if_pos hu]; rfl, ?_, by simp⟩
        intro q v
        simp only [List.not_mem_nil, false_iff]
        rintro ⟨r, h1, _⟩
        simp only [Bool.and_eq_true, bne_iff_ne, ne_eq] at hu
        exact hu.2 (h1 hu.1)
      · obtain ⟨A, hA, hm, hp⟩ := create_ok t (p ++ [k]) σ (by simpa using hk 0 t rfl)
        refine ⟨A, by rw [if_neg hu]; exact hA, ?_, hp⟩
        intro q v
        rw [hm]
        have : u = true → (σ p).pay = .mem k := by
          intro hx; subst hx; simpa using hu
        simp only [List.append_assoc, List.cons_append, List.nil_append]
        exact ⟨fun ⟨r, h1, h2⟩ => ⟨r, this, h1, h2⟩, fun ⟨r, _, h1, h2⟩ => ⟨r, h1, h2⟩⟩
    obtain ⟨A, hA, hm, hp⟩ := hfst
    refine ⟨A ++ B, ?_, ?_, ?_⟩
    · simp only [createMems]
      by_cases hx : (u && (σ p).pay != .mem k) = true
      · rw [if_pos hx] at hA ⊢
        rw [hA]
        simp [bind, Except.bind, hB]
      · rw [if_neg hx] at hA ⊢
        rw [hA]
        simp [bind, Except.bind, hB]
    · intro q v
      rw [List.mem_append, hm, hm']
      constructor
      · rintro (⟨r, h1, h2, h3⟩ | ⟨i, c, r, h1, h2, h3, h4⟩)
        · exact ⟨0, t, r, rfl, by simpa using h1, by simpa using h2, by simpa using h3⟩
        · refine ⟨i + 1, c, r, h1, ?_, ?_, ?_⟩
          · rwa [show k + (i + 1) = k + 1 + i by omega]
          · rwa [show k + (i + 1) = k + 1 + i by omega]
          · rwa [show k + (i + 1) = k + 1 + i by omega]
      · rintro ⟨i, c, r, h1, h2, h3, h4⟩
        cases i with
        | zero =>
          simp only [Mems.get, Option.some.injEq] at h1
          subst h1
          left; exact ⟨r, by simpa using h2, by simpa using h3, by simpa using h4⟩
        | succ i =>
          rw [show k + (i + 1) = k + 1 + i by omega] at h2 h3 h4
          right; exact ⟨i, c, r, h1, h2, h3, h4⟩
    · rw [List.pairwise_append]
      refine ⟨hp, hp', ?_⟩
      rintro ⟨q, v⟩ hq ⟨q', v'⟩ hq'
      obtain ⟨r, _, rfl, _⟩ := (hm q v).1 hq
      obtain ⟨i, c, r', _, _, rfl, _⟩ := (hm' q' v').1 hq'
      exact off_of p k (k + 1 + i) r r' v v' (by omega)
end

theorem assigned_from (A : List (Path × Val)) (hA : A.Pairwise Off) : ∀ (h : InitSpec.Holds) (l : Path) (v : Val) (r : Path),
    A.foldl (fun h a l => if a.1.isPrefixOf l then some (a.2, l.drop a.1.length) else h l) h l = some (v, r) ↔
      (∃ (p : Path), l = p ++ r ∧ (p, v) ∈ A) ∨ ((∀ (a : Path × Val), a ∈ A → ¬ a.1 <+: l) ∧ h l = some (v, r)) := by
  induction A with
  | nil => simp
  | cons a A ih =>
    intro h l v r
    rw [List.pairwise_cons] at hA
    rw [List.foldl_cons, ih hA.2]
    constructor
    · rintro (⟨p, h1, h2⟩ | ⟨h1, h2⟩)
      · left; exact ⟨p, h1, by simp [h2]⟩
      · split at h2
        · rename_i hp
          rw [List.isPrefixOf_iff_prefix] at hp
          simp only [Option.some.injEq, Prod.mk.injEq] at h2
          obtain ⟨rfl, rfl⟩ := h2
          left
          obtain ⟨s, rfl⟩ := hp
          exact ⟨a.1, by simp, by simp⟩
        · rename_i hp
          rw [List.isPrefixOf_iff_prefix] at hp
          right
          refine ⟨?_, h2⟩
          intro b hb
          rcases List.mem_cons.1 hb with rfl | hb
          · exact hp
          · exact h1 b hb
    · rintro (⟨p, h1, h2⟩ | ⟨h1, h2⟩)
      · rcases List.mem_cons.1 h2 with h2 | h2
        · subst h2
          right
          refine ⟨?_, ?_⟩
          · intro b hb hbl
            have := hA.1 b hb
            rcases List.prefix_or_prefix_of_prefix hbl (by rw [h1]; exact List.prefix_append _ _ : p <+: l) with hx | hx
            · exact this.2 hx
            · exact this.1 hx
          · rw [if_pos (by rw [List.isPrefixOf_iff_prefix, h1]; exact List.prefix_append _ _)]
            simp [h1]
        · left; exact ⟨p, h1, h2⟩
      · right
        refine ⟨fun b hb => h1 b (by simp [hb]), ?_⟩
        rw [if_neg (by rw [List.isPrefixOf_iff_prefix]; exact h1 a (by simp))]
        exact h2

theorem assigned_iff (A : List (Path × Val)) (hA : A.Pairwise Off) (l : Path) (v : Val) (r : Path) :
    assigned A l = some (v, r) ↔ ∃ (p : Path), l = p ++ r ∧ (p, v) ∈ A := by
  unfold assigned
  rw [assigned_from A hA]
  simp

theorem kinds_after (T : Ty) (evs : List Ev) (σ : Store) (hv : ∀ (ev : Ev), ev ∈ evs → Valid T ev)
    (hA : After T evs σ) : Kinds T σ [] := by
  intro u d hd
  simp only [List.nil_append]
  rcases hA.kind u with ⟨hk, v, hm⟩ | ⟨hk, _⟩
  · refine ⟨fun hx => ⟨hA.pay u hx, ?_⟩, fun hl => by rw [hk] at hl; cases hl⟩
    intro n b hb
    obtain ⟨c, hc, hc'⟩ := hv _ hm
    rw [hd, hb] at hc
    cases hc
    exact hc'
  · refine ⟨fun hx => by rw [hk] at hx; exact absurd hx (fresh_not_expr T u), ?_⟩
    intro hl k hb
    rw [hk] at hl
    simp [fresh, hd, hb, Ty.kind] at hl

theorem shows_rel (T : Ty) (evs : List Ev) (σ : Store) (hv : ∀ (ev : Ev), ev ∈ evs → Valid T ev)
    (hA : After T evs σ) (q : Path) (v : Val) : Shows T σ q v ↔ Rel T σ [] q v := by
  constructor
  · rintro ⟨h1, h2, h3⟩
    refine ⟨?_, by simpa using h1, by simpa using h2, ?_⟩
    · rcases hA.kind q with ⟨_, w, hm⟩ | ⟨hk, _⟩
      · obtain ⟨c, hc, _⟩ := hv _ hm
        exact ⟨c, hc⟩
      · rw [hk] at h1; exact absurd h1 (fresh_not_expr T q)
    · intro u i s hu
      simpa using h3 u i s hu
  · intro h
    refine ⟨by simpa using h.kind, by simpa using h.pay, ?_⟩
    intro u i s hu
    simpa using h.way u i s hu

/-- The assignments leave what the events say. -/
theorem create_after (T : Ty) (evs : List Ev) (σ : Store) (hv : ∀ (ev : Ev), ev ∈ evs → Valid T ev)
    (hA : After T evs σ) : ∃ (A : List (Path × Val)), create T [] σ = .ok A ∧
      assigned A = InitSpec.holds T evs ∧ A.Pairwise Off := by
  obtain ⟨A, hc, hm, hp⟩ := create_ok T [] σ (kinds_after T evs σ hv hA)
  refine ⟨A, hc, ?_, hp⟩
  funext l
  apply Option.ext
  rintro ⟨v, r⟩
  rw [assigned_iff A hp, hA.holds]
  constructor
  · rintro ⟨p, h1, h2⟩
    obtain ⟨r', h3, h4⟩ := (hm p v).1 h2
    simp only [List.nil_append] at h3
    subst h3
    exact ⟨p, h1, (shows_rel T evs σ hv hA p v).2 h4⟩
  · rintro ⟨p, h1, h2⟩
    exact ⟨p, h1, (hm p v).2 ⟨p, rfl, (shows_rel T evs σ hv hA p v).1 h2⟩⟩

end Slimcc.InitL
