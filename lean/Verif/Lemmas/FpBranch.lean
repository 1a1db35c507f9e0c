import Verif.Lemmas.FpAssign
import Verif.Model.FpBranch
/-! Labels and jumps of statements with floating operands. -/
set_option autoImplicit false
namespace Slimcc.FP
open Slimcc.Spec Slimcc.Spec.CTy Slimcc.Spec.FP Slimcc.X86 Slimcc.Ty Slimcc.Gen

/-! The labels of a text. -/

/-- Every label of the text has the property. -/
def labs (p : Nat → Bool) (l : List FLine) : Bool := l.all fun x => match x with | .lab k => p k | _ => true

theorem labs_append {p : Nat → Bool} {a b : List FLine} : labs p (a ++ b) = (labs p a && labs p b) := by
  unfold labs; exact List.all_append

theorem labs_gps {p : Nat → Bool} (l : List Ins) : labs p (gps l) = true := by
  unfold labs gps; simp

theorem labs_mono {p q : Nat → Bool} {l : List FLine} (h : ∀ k, p k = true → q k = true) (hl : labs p l = true) : labs q l = true := by
  unfold labs at *
  rw [List.all_eq_true] at *
  intro x hx
  have := hl x hx
  cases x <;> first | exact h _ this | rfl

/-- Labels inside conversions. -/
def inner (k : Nat) : Bool := k == 1 || k == 2

theorem load3_labs (t : VTy) (m : MemOp) : labs inner (load3 t m) = true := by
  cases t with
  | int t => exact labs_gps _
  | flo f => cases f <;> rfl
theorem store3_labs (t : VTy) (m : MemOp) : labs inner (store3 t m) = true := by
  cases t with
  | int t => exact labs_gps _
  | flo f => cases f <;> rfl
theorem loadSse_labs (d : Bool) (c : Fl) : labs inner (loadSse d c) = true := by
  unfold loadSse; dsimp only; repeat' split
  all_goals rfl
theorem loadFval_labs (f : FTy) (c : Fl) : labs inner (loadFval f c) = true := by
  unfold loadFval
  cases f with
  | float => exact loadSse_labs _ _
  | double => exact loadSse_labs _ _
  | ldouble => dsimp only; repeat' split
               all_goals rfl
theorem castCode_labs (a b : VTy) : labs inner (castCode a b) = true := by
  cases a with
  | int t =>
    cases b with
    | int u => rfl
    | flo f => cases t <;> cases f <;> rfl
  | flo f =>
    cases b with
    | int u => cases u <;> cases f <;> rfl
    | flo g => cases f <;> cases g <;> rfl
theorem setFlag_labs (op : FCmp) : labs inner (setFlag op) = true := by cases op <;> rfl
theorem comparison_labs (f : FTy) (op : FCmp) (r : Nat) : labs inner (comparison f op r) = true := by
  cases f <;> cases op <;> rfl
theorem arith_labs (f : FTy) (op : FBin) (r : Nat) : labs inner (arith f op r) = true := by
  cases f <;> cases op <;> rfl
theorem negate_labs (f : FTy) : labs inner (negate f) = true := by cases f <;> rfl
theorem pushF_labs (stk : Nat) (d : Bool) (l : TLoc) : labs inner (pushF stk d l) = true := by cases l <;> rfl
theorem popF_labs (stk : Nat) (d : Bool) (l : TLoc) : labs inner (popF stk d l) = true := by cases l <;> rfl

theorem operands_labs (stk : Nat) (f : FTy) (a b : FOut) (op : Nat → List FLine) (ha : labs inner a.code = true) (hb : labs inner b.code = true)
    (ho : ∀ r, labs inner (op r) = true) : labs inner (operands stk f a b op).code = true := by
  cases f with
  | ldouble => simp only [operands, labs_append, ha, hb, ho, Bool.and_true]; rfl
  | float => simp only [operands, labs_append, ha, hb, ho, pushF_labs, popF_labs, Bool.and_true]
  | double => simp only [operands, labs_append, ha, hb, ho, pushF_labs, popF_labs, Bool.and_true]

theorem genF_labs (opt : Bool) (Γ : Nat → VTy) (loc : Nat → MemOp) (stk : Nat) (e : FE) :
    labs inner (genF opt Γ loc stk e).code = true ∧ ∀ f, labs inner (genNot opt Γ loc stk f e).code = true := by
  have cz : ∀ op f (a : FOut), labs inner a.code = true → labs inner (cmpZero stk op f a).code = true := fun op f a ha =>
    operands_labs _ _ _ _ _ ha (loadFval_labs _ _) (comparison_labs _ _)
  have li : ∀ t z, labs inner (loadInt t z).code = true := fun t z => labs_gps _
  induction e with
  | var x =>
    refine ⟨?_, fun f => by rw [genNot] <;> first | rfl | (intros; rename_i h; cases h)⟩
    rw [genF]
    show labs inner (if opt then _ else _) = true
    split
    · exact load3_labs _ _
    · rw [labs_append, labs_gps, load3_labs]; rfl
  | inum t z => exact ⟨by rw [genF]; exact li _ _, fun f => by rw [genNot] <;> first | rfl | (intros; rename_i h; cases h)⟩
  | num g c => exact ⟨by rw [genF]; exact loadFval_labs _ _, fun f => by rw [genNot] <;> first | rfl | (intros; rename_i h; cases h)⟩
  | neg a ih =>
    refine ⟨?_, fun f => by rw [genNot] <;> first | rfl | (intros; rename_i h; cases h)⟩
    rw [genF]
    split
    · exact loadFval_labs _ _
    · show labs inner (_ ++ _) = true
      rw [labs_append, ih.1, negate_labs]; rfl
  | bin op a b iha ihb =>
    refine ⟨?_, fun f => by rw [genNot] <;> first | rfl | (intros; rename_i h; cases h)⟩
    rw [genF]
    split
    · exact loadFval_labs _ _
    · exact operands_labs _ _ _ _ _ iha.1 ihb.1 (arith_labs _ _)
  | cmp op a b iha ihb =>
    refine ⟨?_, fun f => by rw [genNot]; exact operands_labs _ _ _ _ _ iha.1 ihb.1 (comparison_labs _ _)⟩
    rw [genF]
    split
    · exact li _ _
    · exact operands_labs _ _ _ _ _ iha.1 ihb.1 (comparison_labs _ _)
  | not a ih =>
    refine ⟨?_, fun f => by rw [genNot]; exact ih.2 _⟩
    rw [genF]
    split
    · exact li _ _
    · split
      · exact ih.2 _
      · show labs inner (_ ++ _) = true
        rw [labs_append, ih.1, labs_gps]; rfl
  | cast t a ih =>
    refine ⟨?_, fun f => by rw [genNot]; exact cz _ _ _ ih.1⟩
    cases t with
    | flo f =>
      rw [genF]
      split
      · exact loadFval_labs _ _
      · show labs inner (_ ++ _) = true
        rw [labs_append, ih.1, castCode_labs]; rfl
    | int u =>
      rw [genF]
      split
      · exact li _ _
      · split
        · exact cz _ _ _ ih.1
        · show labs inner (_ ++ _) = true
          rw [labs_append, ih.1, castCode_labs]; rfl

theorem genVoid_labs (Γ : Nat → VTy) (loc : Nat → MemOp) (stk : Nat) (x : Nat) (e : FE) : labs inner (genVoid Γ loc stk x e).code = true := by
  unfold genVoid
  split
  · exact labs_gps _
  · split
    · exact labs_gps _
    · show labs inner (_ ++ _) = true
      rw [labs_append, (genF_labs _ _ _ _ _).1, store3_labs]; rfl

theorem genCond_labs (Γ : Nat → VTy) (loc : Nat → MemOp) (stk : Nat) (jc : Bool) (lab : Nat) (c : FE) : labs inner (genCond Γ loc stk jc lab c).code = true := by
  unfold genCond
  dsimp only
  split
  · show labs inner (if _ then _ else _) = true
    repeat' split
    all_goals rfl
  · rw [labs_append, (genF_labs _ _ _ _ _).1]
    split <;> rfl

/-- The labels of a statement are inner ones and those with its numbers. -/
def range (a b k : Nat) : Bool := inner k || (decide (3 * a + 3 ≤ k) && decide (k < 3 * b + 3))

theorem range_inner (a b k : Nat) (h : inner k = true) : range a b k = true := by unfold range; rw [h]; rfl
theorem range_mono {a b a' b' : Nat} (h1 : a' ≤ a) (h2 : b ≤ b') (k : Nat) (h : range a b k = true) : range a' b' k = true := by
  unfold range at *
  simp only [Bool.or_eq_true, Bool.and_eq_true, decide_eq_true_eq] at *
  exact h.imp id fun h => ⟨by omega, by omega⟩
theorem range_own {a b k : Nat} (h1 : 3 * a + 3 ≤ k) (h2 : k < 3 * b + 3) : range a b k = true := by
  unfold range
  simp only [Bool.or_eq_true, Bool.and_eq_true, decide_eq_true_eq]
  omega

theorem one_lab {p : Nat → Bool} {k : Nat} (h : p k = true) : labs p [.lab k] = true := by
  simp only [labs, List.all_cons, List.all_nil, h, Bool.and_true]
theorem two_lab {p : Nat → Bool} {j k : Nat} (h : p k = true) : labs p [.jmp j, .lab k] = true := by
  simp only [labs, List.all_cons, List.all_nil, h, Bool.and_true]

theorem genC_labs (Γ : Nat → VTy) (loc : Nat → MemOp) (stk : Nat) (t : FC) : ∀ jc lab c, c ≤ (genC Γ loc stk t jc lab c).2 ∧
    labs (range c (genC Γ loc stk t jc lab c).2) (genC Γ loc stk t jc lab c).1.code = true := by
  have mid : ∀ (a b : FC) (v : Bool) (lab c d : Nat),
      (∀ jc lab c, c ≤ (genC Γ loc stk a jc lab c).2 ∧ labs (range c (genC Γ loc stk a jc lab c).2) (genC Γ loc stk a jc lab c).1.code = true) →
      (∀ jc lab c, c ≤ (genC Γ loc stk b jc lab c).2 ∧ labs (range c (genC Γ loc stk b jc lab c).2) (genC Γ loc stk b jc lab c).1.code = true) → d ≤ c →
      c ≤ (genC Γ loc stk b v lab (genC Γ loc stk a v lab c).2).2 ∧
      ∀ l, labs (range d (genC Γ loc stk b v lab (genC Γ loc stk a v lab c).2).2) l = true →
        labs (range d (genC Γ loc stk b v lab (genC Γ loc stk a v lab c).2).2) (both (genC Γ loc stk a v lab c).1 (genC Γ loc stk b v lab (genC Γ loc stk a v lab c).2).1 l).code = true := by
    intro a b v lab c d iha ihb hd
    obtain ⟨h1, h2⟩ := iha v lab c
    obtain ⟨h3, h4⟩ := ihb v lab (genC Γ loc stk a v lab c).2
    refine ⟨by omega, fun l hl => ?_⟩
    show labs _ (_ ++ _ ++ l) = true
    rw [labs_append, labs_append, labs_mono (range_mono hd h3) h2, labs_mono (range_mono (by omega) (Nat.le_refl _)) h4, hl]; rfl
  have konst : ∀ (v jc : Bool) (lab : Nat) (p : Nat → Bool), labs p (plain (if v = jc then [.jmp lab] else [])).code = true := by
    intro v jc lab p
    show labs p (if _ then _ else _) = true
    split <;> rfl
  induction t with
  | leaf e => exact fun jc lab c => ⟨Nat.le_refl _, labs_mono (range_inner _ _) (genCond_labs _ _ _ _ _ _)⟩
  | not a ih => exact fun jc lab c => ih (!jc) lab c
  | and a b iha ihb =>
    intro jc lab c
    rw [genC]
    split
    · exact ⟨Nat.le_refl _, konst _ _ _ _⟩
    · split
      · obtain ⟨h1, h2⟩ := mid a b false lab c c iha ihb (Nat.le_refl _)
        exact ⟨h1, h2 [] rfl⟩
      · obtain ⟨h1, h2⟩ := mid a b false (3 * c + 5) (c + 1) c iha ihb (by omega)
        exact ⟨by dsimp only; omega, h2 _ (two_lab (range_own (by omega) (by omega)))⟩
  | or a b iha ihb =>
    intro jc lab c
    rw [genC]
    split
    · exact ⟨Nat.le_refl _, konst _ _ _ _⟩
    · split
      · obtain ⟨h1, h2⟩ := mid a b true lab c c iha ihb (Nat.le_refl _)
        exact ⟨h1, h2 [] rfl⟩
      · obtain ⟨h1, h2⟩ := mid a b true (3 * c + 5) (c + 1) c iha ihb (by omega)
        exact ⟨by dsimp only; omega, h2 _ (two_lab (range_own (by omega) (by omega)))⟩

theorem genStm_labs (Γ : Nat → VTy) (loc : Nat → MemOp) (stk : Nat) (t : FStm) : ∀ c, c ≤ (genStm Γ loc stk t c).2 ∧
    labs (range c (genStm Γ loc stk t c).2) (genStm Γ loc stk t c).1 = true := by
  induction t with
  | skip => exact fun c => ⟨Nat.le_refl _, rfl⟩
  | assign x e => exact fun c => ⟨Nat.le_refl _, labs_mono (range_inner _ _) (genVoid_labs _ _ _ _ _)⟩
  | seq a b iha ihb =>
    intro c
    obtain ⟨h1, h2⟩ := iha c
    obtain ⟨h3, h4⟩ := ihb (genStm Γ loc stk a c).2
    refine ⟨by simp only [genStm]; omega, ?_⟩
    simp only [genStm, labs_append]
    rw [labs_mono (range_mono (Nat.le_refl _) h3) h2, labs_mono (range_mono h1 (Nat.le_refl _)) h4]; rfl
  | ifThen e a ih =>
    intro c
    obtain ⟨h5, h6⟩ := genC_labs Γ loc stk e false (3 * c + 3) (c + 1)
    obtain ⟨h1, h2⟩ := ih (genC Γ loc stk e false (3 * c + 3) (c + 1)).2
    refine ⟨by simp only [genStm]; omega, ?_⟩
    simp only [genStm, labs_append]
    rw [labs_mono (range_mono (by omega) h1) h6, labs_mono (range_mono (by omega) (Nat.le_refl _)) h2, one_lab (range_own (by omega) (by omega))]; rfl
  | ifElse e a b iha ihb =>
    intro c
    obtain ⟨h5, h6⟩ := genC_labs Γ loc stk e false (3 * c + 3) (c + 1)
    obtain ⟨h1, h2⟩ := iha (genC Γ loc stk e false (3 * c + 3) (c + 1)).2
    obtain ⟨h3, h4⟩ := ihb (genStm Γ loc stk a (genC Γ loc stk e false (3 * c + 3) (c + 1)).2).2
    refine ⟨by simp only [genStm]; omega, ?_⟩
    simp only [genStm, labs_append]
    rw [labs_mono (range_mono (by omega) (by omega)) h6, labs_mono (range_mono (by omega) h3) h2, labs_mono (range_mono (by omega) (Nat.le_refl _)) h4,
      one_lab (range_own (by omega) (by omega)), two_lab (range_own (by omega) (by omega))]; rfl

/-! Labels are defined once. -/

theorem named_append (a b : List FLine) : namedLabels (a ++ b) = namedLabels a ++ namedLabels b := List.filterMap_append
theorem named_range {a b : Nat} {l : List FLine} (h : labs (range a b) l = true) {k : Nat} (hk : k ∈ namedLabels l) : 3 * a + 3 ≤ k ∧ k < 3 * b + 3 := by
  unfold namedLabels at hk
  rw [List.mem_filterMap] at hk
  obtain ⟨x, hx, he⟩ := hk
  unfold labs at h
  have := List.all_eq_true.1 h x hx
  cases x with
  | lab j =>
    dsimp only at this he
    split at he
    · cases he
      unfold range inner at this
      simp only [Bool.or_eq_true, Bool.and_eq_true, decide_eq_true_eq, beq_iff_eq] at this
      omega
    · cases he
  | _ => cases he
theorem named_inner {l : List FLine} (h : labs inner l = true) : namedLabels l = [] := by
  rw [List.eq_nil_iff_forall_not_mem]
  intro k hk
  have := named_range (a := 0) (b := 0) (labs_mono (range_inner _ _) h) hk
  omega
theorem nodup_two {a b c : Nat} {l m : List FLine} (hl : labs (range a b) l = true) (hm : labs (range b c) m = true) (h1 : (namedLabels l).Nodup)
    (h2 : (namedLabels m).Nodup) : (namedLabels (l ++ m)).Nodup := by
  rw [named_append, List.nodup_append]
  refine ⟨h1, h2, fun x hx y hy => ?_⟩
  have := named_range hl hx
  have := named_range hm hy
  omega
/-- One more label, below those of the text. -/
theorem nodup_snoc {a b k : Nat} {l : List FLine} (hl : labs (range a b) l = true) (h : (namedLabels l).Nodup) (hk : k < 3 * a + 3) : (namedLabels (l ++ [.lab k])).Nodup := by
  rw [named_append, List.nodup_append]
  refine ⟨h, ?_, fun x hx y hy => ?_⟩
  · unfold namedLabels; by_cases h3 : 3 ≤ k <;> simp [h3]
  · have := named_range hl hx
    have : y = k := by
      unfold namedLabels at hy; by_cases h3 : 3 ≤ k <;> simp [h3] at hy; exact hy
    omega

theorem genC_nodup (Γ : Nat → VTy) (loc : Nat → MemOp) (stk : Nat) (t : FC) : ∀ jc lab c, (namedLabels (genC Γ loc stk t jc lab c).1.code).Nodup := by
  have mid : ∀ (a b : FC) (v : Bool) (lab c : Nat), (∀ jc lab c, (namedLabels (genC Γ loc stk a jc lab c).1.code).Nodup) →
      (∀ jc lab c, (namedLabels (genC Γ loc stk b jc lab c).1.code).Nodup) →
      labs (range c (genC Γ loc stk b v lab (genC Γ loc stk a v lab c).2).2) ((genC Γ loc stk a v lab c).1.code ++ (genC Γ loc stk b v lab (genC Γ loc stk a v lab c).2).1.code) = true ∧
      (namedLabels ((genC Γ loc stk a v lab c).1.code ++ (genC Γ loc stk b v lab (genC Γ loc stk a v lab c).2).1.code)).Nodup := by
    intro a b v lab c iha ihb
    obtain ⟨h1, h2⟩ := genC_labs Γ loc stk a v lab c
    obtain ⟨h3, h4⟩ := genC_labs Γ loc stk b v lab (genC Γ loc stk a v lab c).2
    refine ⟨?_, nodup_two h2 h4 (iha _ _ _) (ihb _ _ _)⟩
    rw [labs_append, labs_mono (range_mono (Nat.le_refl _) h3) h2, labs_mono (range_mono h1 (Nat.le_refl _)) h4]; rfl
  have konst : ∀ (v jc : Bool) (lab : Nat), (namedLabels (plain (if v = jc then [.jmp lab] else [])).code).Nodup := by
    intro v jc lab
    show (namedLabels (if _ then _ else _)).Nodup
    split <;> exact List.nodup_nil
  have short : ∀ (l : List FLine) (lab c e : Nat), labs (range (c + 1) e) l = true → (namedLabels l).Nodup → (namedLabels (l ++ [.jmp lab, .lab (3 * c + 5)])).Nodup := by
    intro l lab c e h1 h2
    have : namedLabels (l ++ [.jmp lab, .lab (3 * c + 5)]) = namedLabels (l ++ [.lab (3 * c + 5)]) := by rw [named_append, named_append]; rfl
    rw [this]
    exact nodup_snoc h1 h2 (by omega)
  induction t with
  | leaf e => intro jc lab c; rw [genC, named_inner (genCond_labs _ _ _ _ _ _)]; exact List.nodup_nil
  | not a ih => exact fun jc lab c => ih (!jc) lab c
  | and a b iha ihb =>
    intro jc lab c
    rw [genC]
    split
    · exact konst _ _ _
    · split
      · have := (mid a b false lab c iha ihb).2
        dsimp only [both]; rwa [List.append_nil]
      · obtain ⟨h1, h2⟩ := mid a b false (3 * c + 5) (c + 1) iha ihb
        exact short _ lab c _ h1 h2
  | or a b iha ihb =>
    intro jc lab c
    rw [genC]
    split
    · exact konst _ _ _
    · split
      · have := (mid a b true lab c iha ihb).2
        dsimp only [both]; rwa [List.append_nil]
      · obtain ⟨h1, h2⟩ := mid a b true (3 * c + 5) (c + 1) iha ihb
        exact short _ lab c _ h1 h2

theorem genStm_nodup (Γ : Nat → VTy) (loc : Nat → MemOp) (stk : Nat) (t : FStm) : ∀ c, (namedLabels (genStm Γ loc stk t c).1).Nodup := by
  induction t with
  | skip => exact fun c => List.nodup_nil
  | assign x e => intro c; rw [genStm, named_inner (genVoid_labs _ _ _ _ _)]; exact List.nodup_nil
  | seq a b iha ihb => exact fun c => nodup_two (genStm_labs _ _ _ a c).2 (genStm_labs _ _ _ b _).2 (iha _) (ihb _)
  | ifThen e a ih =>
    intro c
    obtain ⟨h5, h6⟩ := genC_labs Γ loc stk e false (3 * c + 3) (c + 1)
    obtain ⟨h1, h2⟩ := genStm_labs Γ loc stk a (genC Γ loc stk e false (3 * c + 3) (c + 1)).2
    have hl : labs (range (c + 1) (genStm Γ loc stk a (genC Γ loc stk e false (3 * c + 3) (c + 1)).2).2)
        ((genC Γ loc stk e false (3 * c + 3) (c + 1)).1.code ++ (genStm Γ loc stk a (genC Γ loc stk e false (3 * c + 3) (c + 1)).2).1) = true := by
      rw [labs_append, labs_mono (range_mono (Nat.le_refl _) h1) h6, labs_mono (range_mono h5 (Nat.le_refl _)) h2]; rfl
    exact nodup_snoc hl (nodup_two h6 h2 (genC_nodup _ _ _ e _ _ _) (ih _)) (by omega)
  | ifElse e a b iha ihb =>
    intro c
    obtain ⟨h5, h6⟩ := genC_labs Γ loc stk e false (3 * c + 3) (c + 1)
    obtain ⟨h1, h2⟩ := genStm_labs Γ loc stk a (genC Γ loc stk e false (3 * c + 3) (c + 1)).2
    obtain ⟨h3, h4⟩ := genStm_labs Γ loc stk b (genStm Γ loc stk a (genC Γ loc stk e false (3 * c + 3) (c + 1)).2).2
    simp only [genStm]
    generalize (genC Γ loc stk e false (3 * c + 3) (c + 1)).2 = n1 at *
    have n1c := genC_nodup Γ loc stk e false (3 * c + 3) (c + 1)
    have n2c := iha n1
    have n3c := ihb (genStm Γ loc stk a n1).2
    generalize (genC Γ loc stk e false (3 * c + 3) (c + 1)).1.code = A at *
    generalize (genStm Γ loc stk b (genStm Γ loc stk a n1).2).1 = C at *
    generalize (genStm Γ loc stk b (genStm Γ loc stk a n1).2).2 = n3 at *
    generalize (genStm Γ loc stk a n1).1 = B at *
    generalize (genStm Γ loc stk a n1).2 = n2 at *
    have e : namedLabels (A ++ B ++ [.jmp (3 * c + 4), .lab (3 * c + 3)] ++ C ++ [.lab (3 * c + 4)]) = namedLabels (A ++ B) ++ ([3 * c + 3] ++ (namedLabels C ++ [3 * c + 4])) := by
      have x : namedLabels [.jmp (3 * c + 4), .lab (3 * c + 3)] = [3 * c + 3] := by simp [namedLabels]
      have y : namedLabels [.lab (3 * c + 4)] = [3 * c + 4] := by simp [namedLabels]
      rw [named_append, named_append, named_append (A ++ B), x, y, List.append_assoc, List.append_assoc]
    have hAB : labs (range (c + 1) n2) (A ++ B) = true := by
      rw [labs_append, labs_mono (range_mono (Nat.le_refl _) h1) h6, labs_mono (range_mono h5 (Nat.le_refl _)) h2]; rfl
    rw [e, List.nodup_append]
    refine ⟨nodup_two h6 h2 n1c n2c, ?_, fun x hx y hy => ?_⟩
    · rw [List.nodup_append]
      refine ⟨by simp, ?_, fun x hx y hy => ?_⟩
      · rw [List.nodup_append]
        refine ⟨n3c, by simp, fun x hx y hy => ?_⟩
        have := named_range h4 hx
        rw [List.mem_singleton] at hy; omega
      · rw [List.mem_singleton] at hx
        rw [List.mem_append, List.mem_singleton] at hy
        rcases hy with hy | hy
        · have := named_range h4 hy; omega
        · omega
    · have := named_range hAB hx
      rw [List.mem_append, List.mem_append, List.mem_singleton, List.mem_singleton] at hy
      rcases hy with hy | hy | hy
      · omega
      · have := named_range h4 hy; omega
      · omega

/-! Running. -/

variable (sym : Nat → Word)

/-- A text without the label is passed over. -/
theorem skip_over (n : Nat) (a b : List FLine) (s : FS) (p : Nat → Bool) (hp : p n = false) (h : labs p a = true) : frun sym (a ++ b) (some n) s = frun sym b (some n) s := by
  induction a with
  | nil => rfl
  | cons x a ih =>
    have ha : labs p a = true := by
      unfold labs at *; rw [List.all_cons, Bool.and_eq_true] at h; exact h.2
    cases x with
    | lab k =>
      have hx : p k = true := by
        unfold labs at h; rw [List.all_cons, Bool.and_eq_true] at h; exact h.1
      have : k ≠ n := by rintro rfl; rw [hp] at hx; cases hx
      rw [List.cons_append, frun, if_neg this]; exact ih ha
    | i j => exact ih ha
    | jmp j => exact ih ha
    | jcc c j => exact ih ha

/-! Conditions. -/

theorem strip_core (f : Bool) (e : FE) : (stripNot f e).2 = e.core := by
  induction e generalizing f with
  | not e ih => exact ih _
  | _ => rfl

theorem core_ok {Γ : Nat → VTy} (e : FE) (h : e.Ok Γ) (ht : e.truth = true) : e.core.Ok Γ ∧ e.core.truth = true ∧ ∀ a, e.core ≠ .not a := by
  induction e with
  | not e ih => exact ih h.1 h.2
  | cmp op a b _ _ => exact ⟨h, ht, fun _ h => by cases h⟩
  | cast t a _ => exact ⟨h, ht, fun _ h => by cases h⟩
  | _ => exact absurd ht (by simp [FE.truth])

/-- The value of the condition, in terms of what is below the `!`s. -/
theorem core_eval {Γ : Nat → VTy} {σ : Nat → Val} (e : FE) (ht : e.truth = true) (h : e.Ok Γ) : ∀ (f : Bool) (z : ℤ), Eval Γ σ e (.i z) →
    ∃ w, Eval Γ σ e.core (.i w) ∧ (w = 0 ∨ w = 1) ∧ (decide (z = 0) ^^ f) = (decide (w = 0) ^^ (stripNot f e).1) := by
  induction e with
  | not e ih =>
    intro f z hz
    generalize hv : Val.i z = v at hz
    cases hz with
    | @not _ y hy =>
      cases hv
      obtain ⟨w, h1, h2, h3⟩ := ih h.2 h.1 (!f) y hy
      refine ⟨w, h1, h2, ?_⟩
      show _ = (decide (w = 0) ^^ (stripNot (!f) e).1)
      rw [← h3]
      by_cases hy0 : y = 0 <;> cases f <;> simp [hy0]
  | cmp op a b _ _ => exact fun f z hz => ⟨z, hz, eval_truth hz ht, rfl⟩
  | cast t a _ => exact fun f z hz => ⟨z, hz, eval_truth hz ht, rfl⟩
  | _ => exact absurd ht (by simp [FE.truth])

/-- A truth value in `%al`. -/
theorem test_al (t : CTy) (w : ℤ) (x : Word) (h : InReg t w x) (hw : w = 0 ∨ w = 1) : (testFlags 1 (zx 1 x &&& zx 1 x)).eq = decide (w = 0) := by
  have h1 : 1 ≤ t.bytes ∧ t.bytes ≤ 8 := by cases t <;> decide
  have hl : Low t.bytes w x := by have := ((reps_inReg t w x).2 h).low; rwa [← bytes_size] at this
  have hz : zx 1 x = zx 1 (BitVec.ofInt 64 w) := (hl.mono h1.1 h1.2).zx_eq (by omega)
  have : (testFlags 1 (zx 1 x &&& zx 1 x)).eq = (zx 1 x == 0) := by
    unfold testFlags; dsimp only; rw [BitVec.and_self, zx_zx]
  rw [this, hz]
  rcases hw with rfl | rfl <;> decide

end Slimcc.FP
