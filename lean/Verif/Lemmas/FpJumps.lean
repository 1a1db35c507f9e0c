import Verif.Lemmas.FpBranch
/-! Jumps of statements with floating operands go to labels that are defined. -/
set_option autoImplicit false
namespace Slimcc.FP
open Slimcc.Spec Slimcc.Spec.CTy Slimcc.Spec.FP Slimcc.X86 Slimcc.Ty Slimcc.Gen

/-- Every label that the text jumps to has the property. -/
def goes (p : Nat → Bool) (l : List FLine) : Bool := l.all fun x => match x with | .jmp k => p k | .jcc _ k => p k | _ => true

theorem goes_append {p : Nat → Bool} {a b : List FLine} : goes p (a ++ b) = (goes p a && goes p b) := by
  unfold goes; exact List.all_append

theorem goes_gps {p : Nat → Bool} (l : List Ins) : goes p (gps l) = true := by
  unfold goes gps; simp

theorem load3_goes (t : VTy) (m : MemOp) : goes inner (load3 t m) = true := by
  cases t with
  | int t => exact goes_gps _
  | flo f => cases f <;> rfl
theorem store3_goes (t : VTy) (m : MemOp) : goes inner (store3 t m) = true := by
  cases t with
  | int t => exact goes_gps _
  | flo f => cases f <;> rfl
theorem loadSse_goes (d : Bool) (c : Fl) : goes inner (loadSse d c) = true := by
  unfold loadSse; dsimp only; repeat' split
  all_goals rfl
theorem loadFval_goes (f : FTy) (c : Fl) : goes inner (loadFval f c) = true := by
  unfold loadFval
  cases f with
  | float => exact loadSse_goes _ _
  | double => exact loadSse_goes _ _
  | ldouble => dsimp only; repeat' split
               all_goals rfl
theorem castCode_goes (a b : VTy) : goes inner (castCode a b) = true := by
  cases a with
  | int t =>
    cases b with
    | int u => rfl
    | flo f => cases t <;> cases f <;> rfl
  | flo f =>
    cases b with
    | int u => cases u <;> cases f <;> rfl
    | flo g => cases f <;> cases g <;> rfl
theorem setFlag_goes (op : FCmp) : goes inner (setFlag op) = true := by cases op <;> rfl
theorem comparison_goes (f : FTy) (op : FCmp) (r : Nat) : goes inner (comparison f op r) = true := by
  cases f <;> cases op <;> rfl
theorem arith_goes (f : FTy) (op : FBin) (r : Nat) : goes inner (arith f op r) = true := by
  cases f <;> cases op <;> rfl
theorem negate_goes (f : FTy) : goes inner (negate f) = true := by cases f <;> rfl
theorem pushF_goes (stk : Nat) (d : Bool) (l : TLoc) : goes inner (pushF stk d l) = true := by cases l <;> rfl
theorem popF_goes (stk : Nat) (d : Bool) (l : TLoc) : goes inner (popF stk d l) = true := by cases l <;> rfl

theorem operands_goes (stk : Nat) (f : FTy) (a b : FOut) (op : Nat → List FLine) (ha : goes inner a.code = true) (hb : goes inner b.code = true)
    (ho : ∀ r, goes inner (op r) = true) : goes inner (operands stk f a b op).code = true := by
  cases f with
  | ldouble => simp only [operands, goes_append, ha, hb, ho, Bool.and_true]; rfl
  | float => simp only [operands, goes_append, ha, hb, ho, pushF_goes, popF_goes, Bool.and_true]
  | double => simp only [operands, goes_append, ha, hb, ho, pushF_goes, popF_goes, Bool.and_true]

theorem genF_goes (opt : Bool) (Γ : Nat → VTy) (loc : Nat → MemOp) (stk : Nat) (e : FE) :
    goes inner (genF opt Γ loc stk e).code = true ∧ ∀ f, goes inner (genNot opt Γ loc stk f e).code = true := by
  have cz : ∀ op f (a : FOut), goes inner a.code = true → goes inner (cmpZero stk op f a).code = true := fun op f a ha =>
    operands_goes _ _ _ _ _ ha (loadFval_goes _ _) (comparison_goes _ _)
  have li : ∀ t z, goes inner (loadInt t z).code = true := fun t z => goes_gps _
  induction e with
  | var x =>
    refine ⟨?_, fun f => by rw [genNot] <;> first | rfl | (intros; rename_i h; cases h)⟩
    rw [genF]
    show goes inner (if opt then _ else _) = true
    split
    · exact load3_goes _ _
    · rw [goes_append, goes_gps, load3_goes]; rfl
  | inum t z => exact ⟨by rw [genF]; exact li _ _, fun f => by rw [genNot] <;> first | rfl | (intros; rename_i h; cases h)⟩
  | num g c => exact ⟨by rw [genF]; exact loadFval_goes _ _, fun f => by rw [genNot] <;> first | rfl | (intros; rename_i h; cases h)⟩
  | neg a ih =>
    refine ⟨?_, fun f => by rw [genNot] <;> first | rfl | (intros; rename_i h; cases h)⟩
    rw [genF]
    split
    · exact loadFval_goes _ _
    · show goes inner (_ ++ _) = true
      rw [goes_append, ih.1, negate_goes]; rfl
  | bin op a b iha ihb =>
    refine ⟨?_, fun f => by rw [genNot] <;> first | rfl | (intros; rename_i h; cases h)⟩
    rw [genF]
    split
    · exact loadFval_goes _ _
    · exact operands_goes _ _ _ _ _ iha.1 ihb.1 (arith_goes _ _)
  | cmp op a b iha ihb =>
    refine ⟨?_, fun f => by rw [genNot]; exact operands_goes _ _ _ _ _ iha.1 ihb.1 (comparison_goes _ _)⟩
    rw [genF]
    split
    · exact li _ _
    · exact operands_goes _ _ _ _ _ iha.1 ihb.1 (comparison_goes _ _)
  | not a ih =>
    refine ⟨?_, fun f => by rw [genNot]; exact ih.2 _⟩
    rw [genF]
    split
    · exact li _ _
    · split
      · exact ih.2 _
      · show goes inner (_ ++ _) = true
        rw [goes_append, ih.1, goes_gps]; rfl
  | cast t a ih =>
    refine ⟨?_, fun f => by rw [genNot]; exact cz _ _ _ ih.1⟩
    cases t with
    | flo f =>
      rw [genF]
      split
      · exact loadFval_goes _ _
      · show goes inner (_ ++ _) = true
        rw [goes_append, ih.1, castCode_goes]; rfl
    | int u =>
      rw [genF]
      split
      · exact li _ _
      · split
        · exact cz _ _ _ ih.1
        · show goes inner (_ ++ _) = true
          rw [goes_append, ih.1, castCode_goes]; rfl

theorem genVoid_goes (Γ : Nat → VTy) (loc : Nat → MemOp) (stk : Nat) (x : Nat) (e : FE) : goes inner (genVoid Γ loc stk x e).code = true := by
  unfold genVoid
  split
  · exact goes_gps _
  · split
    · exact goes_gps _
    · show goes inner (_ ++ _) = true
      rw [goes_append, (genF_goes _ _ _ _ _).1, store3_goes]; rfl

theorem jumps_append (a b : List FLine) : namedJumps (a ++ b) = namedJumps a ++ namedJumps b := List.filterMap_append
theorem jumps_inner {l : List FLine} (h : goes inner l = true) : namedJumps l = [] := by
  rw [List.eq_nil_iff_forall_not_mem]
  intro k hk
  unfold namedJumps at hk
  rw [List.mem_filterMap] at hk
  obtain ⟨x, hx, he⟩ := hk
  unfold goes at h
  have := List.all_eq_true.1 h x hx
  have no : ∀ j : Nat, inner j = true → (if 3 ≤ j then some j else none) = some k → False := by
    intro j h1 h2
    split at h2
    · cases h2
      unfold inner at h1
      simp only [Bool.or_eq_true, beq_iff_eq] at h1
      omega
    · cases h2
  cases x with
  | jmp j => exact no j this he
  | jcc c j => exact no j this he
  | _ => cases he
theorem jumps_one (lab : Nat) : ∀ k ∈ namedJumps [.jmp lab], k = lab := by
  intro k hk
  unfold namedJumps at hk; by_cases h3 : 3 ≤ lab <;> simp [h3] at hk; exact hk

theorem genCond_jumps (Γ : Nat → VTy) (loc : Nat → MemOp) (stk : Nat) (jc : Bool) (lab : Nat) (e : FE) : ∀ k ∈ namedJumps (genCond Γ loc stk jc lab e).code, k = lab := by
  unfold genCond
  dsimp only
  intro k hk
  split at hk
  · change k ∈ namedJumps (ite _ _ _) at hk
    split at hk
    all_goals split at hk
    all_goals first | exact jumps_one lab k hk | cases hk
  · rw [jumps_append, jumps_inner (genF_goes _ _ _ _ _).1, List.nil_append] at hk
    unfold namedJumps at hk; by_cases h3 : 3 ≤ lab <;> simp [h3] at hk; exact hk

theorem genC_jumps (Γ : Nat → VTy) (loc : Nat → MemOp) (stk : Nat) (t : FC) : ∀ jc lab c, ∀ k ∈ namedJumps (genC Γ loc stk t jc lab c).1.code,
    k = lab ∨ k ∈ namedLabels (genC Γ loc stk t jc lab c).1.code := by
  have konst : ∀ (v jc : Bool) (lab : Nat), ∀ k ∈ namedJumps (plain (if v = jc then [.jmp lab] else [])).code, k = lab := by
    intro v jc lab k hk
    change k ∈ namedJumps (if v = jc then [.jmp lab] else []) at hk
    split at hk
    · exact jumps_one lab k hk
    · cases hk
  have mid : ∀ (A B : List FLine) (l k : Nat), (∀ k ∈ namedJumps A, k = l ∨ k ∈ namedLabels A) → (∀ k ∈ namedJumps B, k = l ∨ k ∈ namedLabels B) →
      k ∈ namedJumps (A ++ B) → k = l ∨ k ∈ namedLabels (A ++ B) := by
    intro A B l k ha hb hk
    rw [jumps_append, List.mem_append] at hk
    rw [named_append, List.mem_append]
    rcases hk with hk | hk
    · exact (ha k hk).imp id .inl
    · exact (hb k hk).imp id .inr
  have short : ∀ (A B : List FLine) (l lab k : Nat), 3 ≤ l → (∀ k ∈ namedJumps A, k = l ∨ k ∈ namedLabels A) → (∀ k ∈ namedJumps B, k = l ∨ k ∈ namedLabels B) →
      k ∈ namedJumps (A ++ B ++ [.jmp lab, .lab l]) → k = lab ∨ k ∈ namedLabels (A ++ B ++ [.jmp lab, .lab l]) := by
    intro A B l lab k hl ha hb hk
    have hn : namedLabels [.jmp lab, .lab l] = [l] := by simp [namedLabels, hl]
    rw [jumps_append, List.mem_append] at hk
    rw [named_append, List.mem_append, hn, List.mem_singleton]
    rcases hk with hk | hk
    · rcases mid A B l k ha hb hk with h | h
      · exact .inr (.inr h)
      · exact .inr (.inl h)
    · exact .inl (jumps_one lab k hk)
  induction t with
  | leaf e => exact fun jc lab c k hk => .inl (genCond_jumps _ _ _ _ _ _ k hk)
  | not a ih => exact fun jc lab c => ih (!jc) lab c
  | and a b iha ihb =>
    intro jc lab c k hk
    rw [genC] at hk ⊢
    cases hf : foldC Γ (.and a b) with
    | some v => rw [hf] at hk; exact .inl (konst _ _ _ k hk)
    | none =>
      rw [hf] at hk
      cases jc with
      | false =>
        change k ∈ namedJumps (_ ++ _ ++ []) at hk
        change _ ∨ k ∈ namedLabels (_ ++ _ ++ [])
        rw [List.append_nil] at hk ⊢
        exact mid _ _ lab k (iha _ _ _) (ihb _ _ _) hk
      | true => exact short _ _ _ lab k (by omega) (iha _ _ _) (ihb _ _ _) hk
  | or a b iha ihb =>
    intro jc lab c k hk
    rw [genC] at hk ⊢
    cases hf : foldC Γ (.or a b) with
    | some v => rw [hf] at hk; exact .inl (konst _ _ _ k hk)
    | none =>
      rw [hf] at hk
      cases jc with
      | true =>
        change k ∈ namedJumps (_ ++ _ ++ []) at hk
        change _ ∨ k ∈ namedLabels (_ ++ _ ++ [])
        rw [List.append_nil] at hk ⊢
        exact mid _ _ lab k (iha _ _ _) (ihb _ _ _) hk
      | false => exact short _ _ _ lab k (by omega) (iha _ _ _) (ihb _ _ _) hk

theorem genStm_jumps (Γ : Nat → VTy) (loc : Nat → MemOp) (stk : Nat) (t : FStm) : ∀ c, ∀ k ∈ namedJumps (genStm Γ loc stk t c).1, k ∈ namedLabels (genStm Γ loc stk t c).1 := by
  induction t with
  | skip => intro c k hk; cases hk
  | assign x e => intro c k hk; rw [genStm, jumps_inner (genVoid_goes _ _ _ _ _)] at hk; cases hk
  | seq a b iha ihb =>
    intro c k hk
    simp only [genStm, jumps_append, named_append, List.mem_append] at hk ⊢
    exact hk.imp (iha _ k) (ihb _ k)
  | ifThen e a ih =>
    intro c k hk
    have hn : namedLabels [.lab (3 * c + 3)] = [3 * c + 3] := by simp [namedLabels]
    simp only [genStm, jumps_append, named_append, List.mem_append, hn, List.mem_singleton] at hk ⊢
    rcases hk with (hk | hk) | hk
    · rcases genC_jumps Γ loc stk e _ _ _ k hk with h | h
      · exact .inr h
      · exact .inl (.inl h)
    · exact .inl (.inr (ih _ k hk))
    · cases hk
  | ifElse e a b iha ihb =>
    intro c k hk
    have hn : namedLabels [.lab (3 * c + 4)] = [3 * c + 4] := by simp [namedLabels]
    have hm : namedLabels [.jmp (3 * c + 4), .lab (3 * c + 3)] = [3 * c + 3] := by simp [namedLabels]
    simp only [genStm, jumps_append, named_append, List.mem_append, hn, hm, List.mem_singleton] at hk ⊢
    rcases hk with (((hk | hk) | hk) | hk) | hk
    · rcases genC_jumps Γ loc stk e _ _ _ k hk with h | h
      · exact .inl (.inl (.inr h))
      · exact .inl (.inl (.inl (.inl h)))
    · exact .inl (.inl (.inl (.inr (iha _ k hk))))
    · exact .inr (jumps_one _ k hk)
    · exact .inl (.inr (ihb _ k hk))
    · cases hk

end Slimcc.FP
