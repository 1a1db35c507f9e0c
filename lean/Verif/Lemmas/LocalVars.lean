import Verif.Spec.LocalVars
import Verif.Lemmas.Layout
/-! Places of local variables. -/
set_option autoImplicit false
namespace Slimcc.FrameL
open Slimcc.Spec Slimcc.Frame Slimcc.Layout

theorem varAlign_nat {v : Var} (h : VarWf v) :
    ∃ a : Nat, varAlign v = a ∧ 0 < a ∧ (a : Int) ≤ max 16 v.align ∧ ∃ k, a = 2 ^ k := by
  obtain ⟨k, hk⟩ := h.align
  have hp : 0 < 2 ^ k := Nat.two_pow_pos k
  unfold varAlign
  split
  · by_cases h16 : 16 ≤ 2 ^ k
    · refine ⟨2 ^ k, ?_, hp, ?_, k, rfl⟩ <;> rw [hk] <;> omega
    · refine ⟨16, ?_, by omega, ?_, 4, rfl⟩ <;> rw [hk] <;> omega
  · split
    · exact ⟨8, rfl, by omega, by omega, 3, rfl⟩
    · exact ⟨2 ^ k, hk, hp, by omega, k, rfl⟩

theorem budget_cons (v : Var) (vs : List Var) : budget (v :: vs) = v.size + max 16 v.align + budget vs := by
  unfold budget; rw [List.map_cons, List.sum_cons]

theorem budget_append (a b : List Var) : budget (a ++ b) = budget a + budget b := by
  unfold budget; rw [List.map_append, List.sum_append]

theorem budget_nonneg {vs : List Var} (h : ∀ v ∈ vs, VarWf v) : 0 ≤ budget vs := by
  induction vs with
  | nil => exact Int.le_refl _
  | cons v vs ih =>
    rw [budget_cons]
    have := ih fun x hx => h x (List.mem_cons_of_mem _ hx)
    have := (h v List.mem_cons_self).size
    omega

/-- A variable between two depths of the frame. -/
def Between (b d : Int) (p : Var × Int) : Prop :=
  p.1.byStack = false → -d ≤ p.2 ∧ p.2 + p.1.size ≤ -b ∧ varAlign p.1 ∣ p.2

theorem Between.mono {b b' d d' : Int} {p : Var × Int} (h : Between b d p) (hb : b' ≤ b) (hd : d ≤ d') : Between b' d' p := by
  intro hp
  have := h hp
  exact ⟨by omega, by omega, this.2.2⟩

theorem apart_of_between {b d c : Int} {p q : Var × Int} (hp : Between b d p) (hq : Between d c q) : Apart p q := by
  unfold Apart
  cases h1 : p.1.byStack with
  | true => simp
  | false =>
    cases h2 : q.1.byStack with
    | true => simp
    | false =>
      have := hp h1
      have := hq h2
      refine Or.inr (Or.inr (Or.inr ?_))
      omega

/-- Lists at increasing depths. -/
theorem pairwise_levels {b d c : Int} {l k : List (Var × Int)} (hl : l.Pairwise Apart) (hk : k.Pairwise Apart)
    (h1 : ∀ p ∈ l, Between b d p) (h2 : ∀ p ∈ k, Between d c p) : (l ++ k).Pairwise Apart :=
  List.pairwise_append.2 ⟨hl, hk, fun p hp q hq => apart_of_between (h1 p hp) (h2 q hq)⟩

theorem assignVars_ok : ∀ (vs : List Var) (b : Nat), (∀ v ∈ vs, VarWf v) → (b : Int) + budget vs ≤ 2147483647 →
    ∃ ps, ∃ b' : Nat, assignVars vs b = .ok (ps, (b' : Int)) ∧ ps.map Prod.fst = vs ∧ b ≤ b' ∧ (b' : Int) ≤ b + budget vs ∧
      (∀ p ∈ ps, Between b b' p) ∧ ps.Pairwise Apart := by
  intro vs
  induction vs with
  | nil =>
    intro b _ _
    exact ⟨[], b, rfl, rfl, Nat.le_refl _, by simp [budget], fun _ h => (nomatch h), List.Pairwise.nil⟩
  | cons v vs ih =>
    intro b hw hb
    have hv := hw v List.mem_cons_self
    have hws : ∀ x ∈ vs, VarWf x := fun x hx => hw x (List.mem_cons_of_mem _ hx)
    rw [budget_cons] at hb ⊢
    have hn := budget_nonneg hws
    have hsz := hv.size
    unfold assignVars
    cases hst : v.byStack with
    | true =>
      rw [if_pos rfl]
      have hs := hv.stack
      have e30 : (2 : Int) ^ 30 = 1073741824 := by decide
      rw [e30] at hs
      rw [int_ok _ (by omega) (by omega)]
      obtain ⟨ps, b', e, h1, h2, h3, h4, h5⟩ := ih b hws (by omega)
      refine ⟨(v, v.stackOffset + 16) :: ps, b', ?_, by simp [h1], h2, by omega, ?_, ?_⟩
      · show (assignVars vs b >>= _) = _
        rw [e]; rfl
      · intro p hp
        rcases List.mem_cons.1 hp with rfl | hp
        · intro h; rw [hst] at h; cases h
        · exact h4 p hp
      · exact List.pairwise_cons.2 ⟨fun q _ => Or.inl hst, h5⟩
    | false =>
      rw [if_neg (by simp)]
      obtain ⟨a, ea, ha, hle, _⟩ := varAlign_nat hv
      obtain ⟨sz, hsz'⟩ : ∃ n : Nat, v.size = n := ⟨v.size.toNat, by omega⟩
      have e1 : (b : Int) + v.size = ((b + sz : Nat) : Int) := by omega
      have u1 := up_ge (b + sz) a ha
      have u2 := up_lt (b + sz) a ha
      rw [e1, toInt_nat _ (by omega), ea, alignTo_nat _ _ ha (by omega)]
      obtain ⟨ps, b', e, h1, h2, h3, h4, h5⟩ := ih (up (b + sz) a) hws (by omega)
      refine ⟨(v, -(up (b + sz) a : Int)) :: ps, b', ?_, by simp [h1], by omega, by omega, ?_, ?_⟩
      · show (int _ >>= _) = _
        rw [int_ok _ (by omega) (by omega)]
        show (assignVars vs (up (b + sz) a : Nat) >>= _) = _
        rw [e]; rfl
      · intro p hp
        rcases List.mem_cons.1 hp with rfl | hp
        · intro _
          dsimp only
          rw [ea]
          refine ⟨by omega, by omega, Int.dvd_neg.2 ?_⟩
          exact Int.natCast_dvd_natCast.2 (up_dvd _ _)
        · exact (h4 p hp).mono (by omega) (Int.le_refl _)
      · refine List.pairwise_cons.2 ⟨fun q hq => ?_, h5⟩
        refine apart_of_between (b := b) (d := (up (b + sz) a : Nat)) ?_ (h4 q hq)
        intro _
        dsimp only
        rw [ea]
        refine ⟨by omega, by omega, Int.dvd_neg.2 ?_⟩
        exact Int.natCast_dvd_natCast.2 (up_dvd _ _)

/-- What is known of a placed scope between the depths `b` and `d`. -/
structure PlacedOk (reuse : Bool) (s : Scope Var) (ps : Scope (Var × Int)) (b d : Int) : Prop where
  shape : scopeVars Prod.fst ps = s
  between : ∀ p ∈ allVars ps, Between b d p
  paths : ∀ l, Path ps l → l.Pairwise Apart
  all : reuse = false → (allVars ps).Pairwise Apart

structure SubsOk (reuse : Bool) (s : Scopes Var) (ps : Scopes (Var × Int)) (b d : Int) : Prop where
  shape : subsVars Prod.fst ps = s
  between : ∀ p ∈ allSubs ps, Between b d p
  paths : ∀ l, SubPath ps l → l.Pairwise Apart
  all : reuse = false → (allSubs ps).Pairwise Apart

mutual
theorem path_mem {α : Type} {s : Scope α} {l : List α} (h : Path s l) : ∀ x ∈ l, x ∈ allVars s := by
  cases h with
  | here ls cs => intro x hx; exact List.mem_append_left _ hx
  | down ls cs l h =>
    intro x hx
    rcases List.mem_append.1 hx with h1 | h1
    · exact List.mem_append_left _ h1
    · exact List.mem_append_right _ (subPath_mem h x h1)
theorem subPath_mem {α : Type} {s : Scopes α} {l : List α} (h : SubPath s l) : ∀ x ∈ l, x ∈ allSubs s := by
  cases h with
  | first s r l h => intro x hx; exact List.mem_append_left _ (path_mem h x hx)
  | next s r l h => intro x hx; exact List.mem_append_right _ (subPath_mem h x hx)
end

mutual
theorem assign_ok (reuse : Bool) : ∀ (s : Scope Var) (b : Nat), (∀ v ∈ allVars s, VarWf v) → (b : Int) + budget (allVars s) ≤ 2147483647 →
    ∃ ps, ∃ d : Nat, assign reuse s b = .ok (ps, (d : Int)) ∧ b ≤ d ∧ (d : Int) ≤ b + budget (allVars s) ∧ PlacedOk reuse s ps b d
  | .mk ls cs, b, hw, hb => by
    simp only [allVars] at hw hb ⊢
    rw [budget_append] at hb ⊢
    have hw1 : ∀ v ∈ ls, VarWf v := fun v hv => hw v (List.mem_append_left _ hv)
    have hw2 : ∀ v ∈ allSubs cs, VarWf v := fun v hv => hw v (List.mem_append_right _ hv)
    have n2 := budget_nonneg hw2
    obtain ⟨ps, b', e1, h1, h2, h3, h4, h5⟩ := assignVars_ok ls b hw1 (by omega)
    obtain ⟨qs, d, e2, g1, g2, g3⟩ := assignSubs_ok reuse cs b' b' hw2 (by omega) (Nat.le_refl _) (fun _ => rfl)
    refine ⟨.mk ps qs, d, ?_, by omega, by omega, ?_, ?_, ?_, ?_⟩
    · unfold assign
      rw [e1]
      show (assignSubs reuse cs b' b' >>= _) = _
      rw [e2]; rfl
    · simp only [scopeVars, h1, g3.shape]
    · intro p hp
      simp only [allVars] at hp
      rcases List.mem_append.1 hp with hp | hp
      · exact (h4 p hp).mono (Int.le_refl _) (by omega)
      · exact (g3.between p hp).mono (by omega) (Int.le_refl _)
    · intro l hl
      cases hl with
      | here => exact h5
      | down _ _ k hk =>
        exact pairwise_levels h5 (g3.paths k hk) h4 fun p hp => g3.between p (subPath_mem hk p hp)
    · intro hr
      simp only [allVars]
      exact pairwise_levels h5 (g3.all hr) h4 g3.between
theorem assignSubs_ok (reuse : Bool) : ∀ (s : Scopes Var) (b depth : Nat), (∀ v ∈ allSubs s, VarWf v) → (b : Int) + budget (allSubs s) ≤ 2147483647 →
    b ≤ depth → (reuse = false → depth = b) →
    ∃ ps, ∃ d : Nat, assignSubs reuse s b depth = .ok (ps, (d : Int)) ∧ depth ≤ d ∧ (d : Int) ≤ max (depth : Int) (b + budget (allSubs s)) ∧ SubsOk reuse s ps b d
  | .nil, b, depth, _, _, _, _ => by
    refine ⟨.nil, depth, rfl, Nat.le_refl _, by omega, rfl, fun p hp => ?_, fun l hl => ?_, fun _ => List.Pairwise.nil⟩
    · simp only [allSubs] at hp; cases hp
    · cases hl
  | .cons s r, b, depth, hw, hb, hd, hr => by
    simp only [allSubs] at hw hb ⊢
    rw [budget_append] at hb ⊢
    have hw1 : ∀ v ∈ allVars s, VarWf v := fun v hv => hw v (List.mem_append_left _ hv)
    have hw2 : ∀ v ∈ allSubs r, VarWf v := fun v hv => hw v (List.mem_append_right _ hv)
    have n1 := budget_nonneg hw1
    have n2 := budget_nonneg hw2
    obtain ⟨p, sub, e1, h1, h2, h3⟩ := assign_ok reuse s b hw1 (by omega)
    cases reuse with
    | false =>
      obtain ⟨qs, d, e2, g1, g2, g3⟩ := assignSubs_ok false r sub sub hw2 (by omega) (Nat.le_refl _) (fun _ => rfl)
      have := hr rfl
      refine ⟨.cons p qs, d, ?_, by omega, by omega, ?_, ?_, ?_, ?_⟩
      · unfold assignSubs
        rw [e1]
        show ((if _ then assignSubs false r sub sub else _) >>= _) = _
        rw [if_pos rfl, e2]; rfl
      · simp only [subsVars, h3.shape, g3.shape]
      · intro x hx
        simp only [allSubs] at hx
        rcases List.mem_append.1 hx with hx | hx
        · exact (h3.between x hx).mono (Int.le_refl _) (by omega)
        · exact (g3.between x hx).mono (by omega) (Int.le_refl _)
      · intro l hl
        cases hl with
        | first _ _ _ hl => exact h3.paths l hl
        | next _ _ _ hl => exact g3.paths l hl
      · intro _
        simp only [allSubs]
        exact pairwise_levels (h3.all rfl) (g3.all rfl) h3.between g3.between
    | true =>
      obtain ⟨qs, d, e2, g1, g2, g3⟩ := assignSubs_ok true r b (max depth sub) hw2 (by omega) (by omega) (fun h => (nomatch h))
      refine ⟨.cons p qs, d, ?_, by omega, by omega, ?_, ?_, ?_, fun h => (nomatch h)⟩
      · unfold assignSubs
        rw [e1]
        show ((if _ then _ else assignSubs true r b (max (depth : Int) (sub : Int))) >>= _) = _
        rw [if_neg (by simp), show max (depth : Int) (sub : Int) = ((max depth sub : Nat) : Int) by omega, e2]; rfl
      · simp only [subsVars, h3.shape, g3.shape]
      · intro x hx
        simp only [allSubs] at hx
        rcases List.mem_append.1 hx with hx | hx
        · exact (h3.between x hx).mono (Int.le_refl _) (by omega)
        · exact g3.between x hx
      · intro l hl
        cases hl with
        | first _ _ _ hl => exact h3.paths l hl
        | next _ _ _ hl => exact g3.paths l hl
end

/-! Alignment of the frame pointer. -/

theorem varsAlign_ge : ∀ (vs : List Var) (a : Int), a ≤ varsAlign vs a ∧ ∀ v ∈ vs, v.byStack = false → v.align ≤ varsAlign vs a := by
  intro vs
  induction vs with
  | nil => intro a; exact ⟨Int.le_refl _, fun _ h => (nomatch h)⟩
  | cons v vs ih =>
    intro a
    unfold varsAlign
    have h := ih (if v.byStack = true then a else max a v.align)
    have h0 : a ≤ (if v.byStack = true then a else max a v.align) := by split <;> omega
    refine ⟨by omega, fun x hx hb => ?_⟩
    rcases List.mem_cons.1 hx with rfl | hx
    · rw [hb] at h ⊢
      simp only [Bool.false_eq_true, if_false] at h ⊢
      omega
    · exact h.2 x hx hb

mutual
theorem lvarAlign_ge : ∀ (s : Scope Var) (a : Int), a ≤ lvarAlign s a ∧ ∀ v ∈ allVars s, v.byStack = false → v.align ≤ lvarAlign s a
  | .mk ls cs, a => by
    have h1 := varsAlign_ge ls a
    have h2 := subsAlign_ge cs (varsAlign ls a)
    unfold lvarAlign
    refine ⟨by omega, fun v hv hb => ?_⟩
    simp only [allVars] at hv
    rcases List.mem_append.1 hv with hv | hv
    · have := h1.2 v hv hb; omega
    · exact h2.2 v hv hb
theorem subsAlign_ge : ∀ (s : Scopes Var) (a : Int), a ≤ subsAlign s a ∧ ∀ v ∈ allSubs s, v.byStack = false → v.align ≤ subsAlign s a
  | .nil, a => by
    unfold subsAlign
    refine ⟨Int.le_refl _, fun v hv => ?_⟩
    simp only [allSubs] at hv; cases hv
  | .cons s r, a => by
    have h1 := lvarAlign_ge s a
    have h2 := subsAlign_ge r (max a (lvarAlign s a))
    unfold subsAlign
    refine ⟨by omega, fun v hv hb => ?_⟩
    simp only [allSubs] at hv
    rcases List.mem_append.1 hv with hv | hv
    · have := h1.2 v hv hb; omega
    · exact h2.2 v hv hb
end

/-- Powers of two: `max` keeps them. -/
def IsPow (a : Int) : Prop := ∃ k : Nat, a = (2 ^ k : Nat)

theorem IsPow.max {a b : Int} (ha : IsPow a) (hb : IsPow b) : IsPow (max a b) := by
  rcases Int.le_total a b with h | h
  · rw [Int.max_eq_right h]; exact hb
  · rw [Int.max_eq_left h]; exact ha

theorem varsAlign_pow : ∀ (vs : List Var) (a : Int), (∀ v ∈ vs, VarWf v) → IsPow a → IsPow (varsAlign vs a) := by
  intro vs
  induction vs with
  | nil => intro a _ h; exact h
  | cons v vs ih =>
    intro a hw ha
    unfold varsAlign
    refine ih _ (fun x hx => hw x (List.mem_cons_of_mem _ hx)) ?_
    split
    · exact ha
    · exact ha.max (hw v List.mem_cons_self).align

mutual
theorem lvarAlign_pow : ∀ (s : Scope Var) (a : Int), (∀ v ∈ allVars s, VarWf v) → IsPow a → IsPow (lvarAlign s a)
  | .mk ls cs, a, hw, ha => by
    unfold lvarAlign
    simp only [allVars] at hw
    exact subsAlign_pow cs _ (fun v hv => hw v (List.mem_append_right _ hv)) (varsAlign_pow ls a (fun v hv => hw v (List.mem_append_left _ hv)) ha)
theorem subsAlign_pow : ∀ (s : Scopes Var) (a : Int), (∀ v ∈ allSubs s, VarWf v) → IsPow a → IsPow (subsAlign s a)
  | .nil, a, _, ha => by unfold subsAlign; exact ha
  | .cons s r, a, hw, ha => by
    unfold subsAlign
    simp only [allSubs] at hw
    exact subsAlign_pow r _ (fun v hv => hw v (List.mem_append_right _ hv)) (ha.max (lvarAlign_pow s a (fun v hv => hw v (List.mem_append_left _ hv)) ha))
end

theorem IsPow.dvd {a b : Int} (ha : IsPow a) (hb : IsPow b) (h : a ≤ b) : a ∣ b := by
  obtain ⟨i, rfl⟩ := ha
  obtain ⟨j, rfl⟩ := hb
  have h' : 2 ^ i ≤ 2 ^ j := by omega
  have hij : i ≤ j := by
    rcases Nat.lt_or_ge j i with hlt | hge
    · have := Nat.pow_lt_pow_right (a := 2) (by decide) hlt
      omega
    · exact hge
  exact Int.natCast_dvd_natCast.2 (Nat.pow_dvd_pow 2 hij)

end Slimcc.FrameL
