import Verif.Lemmas.FpJumps
import Verif.Props.C82
/-! C83: branches on conditions with floating operands. -/
set_option autoImplicit false
namespace Slimcc.Props
open Slimcc.Spec Slimcc.Spec.CTy Slimcc.Spec.FP Slimcc.X86 Slimcc.Ty Slimcc.Gen Slimcc.FP

/-- What is asked of a condition: it is well-typed, and below its `!`s the conditions of C63 hold. Unlike there, the operands
of a relation below `!`s of the condition may be "not a number". -/
structure CondOk (E : FEnv) (σ : Nat → Val) (c : FE) : Prop where
  ok : c.Ok E.Γ
  truth : c.truth = true
  casts : SoundCasts E.Γ σ c.core
  kept : Kept E.Γ σ c.core
  comp : Comparable E.Γ σ c.core
  room : ∀ jc lab, (genCond E.Γ E.loc E.stk jc lab c).st ≤ E.K

/-- The code of a condition jumps to the label exactly if the condition has the value asked for, and changes no variable. -/
theorem C83_condition (E : FEnv) (hE : E.Ok) (σ : Nat → Val) (c : FE) (z : ℤ) (jc : Bool) (lab n : Nat) (s : FS) (h : CondOk E σ c)
    (hz : Eval E.Γ σ c (.i z)) (hs : Within E σ n s) (hn : n ≤ 5) :
    ∃ s', Within E σ n s' ∧ ∀ rest, frun E.sym ((genCond E.Γ E.loc E.stk jc lab c).code ++ rest) none s =
      frun E.sym rest (if decide (z ≠ 0) = jc then some lab else none) s' := by
  have hσ : ∀ x, HasTy (E.Γ x) (σ x) := fun x => at_has (hs.mem x)
  obtain ⟨o1, o2, o3⟩ := core_ok c h.ok h.truth
  obtain ⟨w, e1, e2, e3⟩ := core_eval c h.truth h.ok false z hz
  have hK := h.room jc lab
  have key : (decide (w ≠ 0) = (jc ^^ (stripNot false c).1)) = (decide (z ≠ 0) = jc) := by
    have : decide (z = 0) = (decide (w = 0) ^^ (stripNot false c).1) := by rw [← e3, Bool.xor_false]
    by_cases hz0 : z = 0 <;> by_cases hw0 : w = 0 <;> cases hf : (stripNot false c).1 <;> cases jc <;> simp_all
  unfold genCond at hK ⊢
  dsimp only at hK ⊢
  rw [strip_core] at hK ⊢
  cases hfold : foldI E.Γ c.core with
  | some y =>
    obtain rfl := (fold_same hσ c.core o1 h.kept).2 y w hfold e1
    refine ⟨s, hs, fun rest => ?_⟩
    dsimp only
    show frun E.sym ((if _ then _ else _) ++ rest) none s = _
    have : (y = if (jc ^^ (stripNot false c).1) = true then 1 else 0) ↔ decide (z ≠ 0) = jc := by
      rw [← key]
      rcases e2 with rfl | rfl <;> cases (jc ^^ (stripNot false c).1) <;> simp
    by_cases hj : decide (z ≠ 0) = jc
    · rw [if_pos (this.2 hj), if_pos hj]; rfl
    · rw [if_neg (fun hc => hj (this.1 hc)), if_neg hj]; rfl
  | none =>
    rw [hfold] at hK
    dsimp only at hK ⊢
    obtain ⟨s1, r1, p1, l1⟩ := C63_expression true E hE σ c.core (.i w) n s o1 e1 h.casts (fun _ => ⟨h.kept, h.comp⟩) hs hn hK
    have hty : ∃ t, c.core.ty E.Γ = .int t := by
      have := eval_has hσ e1 o1
      cases ht : c.core.ty E.Γ with
      | int t => exact ⟨t, rfl⟩
      | flo f => rw [ht] at this; exact this.elim
    obtain ⟨t, ht⟩ := hty
    rw [ht] at p1
    have w1 := within_leaves (n' := n) hE hK hs l1 p1.2
    have ha := test_al t w _ p1.1 e2
    refine ⟨{ s1 with g := { s1.g with f := some (testFlags 1 (zx 1 (s1.g.r .ax) &&& zx 1 (s1.g.r .ax))) }, pf := none },
      ⟨w1.bp, w1.sp, w1.cw, w1.st, w1.mem⟩, fun rest => ?_⟩
    rw [List.append_assoc, frun_append _ _ _ _ _ r1]
    show (if CC.holds (if _ then .ne else .e) (testFlags 1 (zx 1 (s1.g.r .ax) &&& zx 1 (s1.g.r .ax))) = true then _ else _) = _
    have : CC.holds (if (jc ^^ (stripNot false c).1) = true then .ne else .e) (testFlags 1 (zx 1 (s1.g.r .ax) &&& zx 1 (s1.g.r .ax))) = true ↔ decide (z ≠ 0) = jc := by
      rw [← key]
      generalize (testFlags 1 (zx 1 (s1.g.r .ax) &&& zx 1 (s1.g.r .ax))) = fl at ha
      cases (jc ^^ (stripNot false c).1) <;> simp [CC.holds, ha]
    by_cases hj : decide (z ≠ 0) = jc
    · rw [if_pos (this.2 hj), if_pos hj]; rfl
    · rw [if_neg (fun hc => hj (this.1 hc)), if_neg hj]; rfl

/-- `CondOk` for each operand of `!`, `&&` and `||` that is reached. -/
def CondsOk (E : FEnv) (σ : Nat → Val) : FC → Prop
  | .leaf e => CondOk E σ e
  | .not c => CondsOk E σ c
  | .and a b => CondsOk E σ a ∧ (Truth E.Γ σ a true → CondsOk E σ b)
  | .or a b => CondsOk E σ a ∧ (Truth E.Γ σ a false → CondsOk E σ b)

theorem kept_core {Γ : Nat → VTy} {σ : Nat → Val} (e : FE) (h : Kept Γ σ e.core) : Kept Γ σ e := by
  induction e with
  | not e ih => exact ih h
  | _ => exact h

/-- A constant condition has the value that the compiler computes. -/
theorem foldC_same {E : FEnv} {σ : Nat → Val} (hσ : ∀ x, HasTy (E.Γ x) (σ x)) (t : FC) : ∀ (v w : Bool), CondsOk E σ t → foldC E.Γ t = some v → Truth E.Γ σ t w → v = w := by
  induction t with
  | leaf e =>
    intro v w h hf ht
    cases ht with
    | @leaf _ z hz =>
      simp only [foldC, Option.map_eq_some_iff] at hf
      obtain ⟨y, hy, rfl⟩ := hf
      rw [(fold_same hσ e h.ok (kept_core e h.kept)).2 y z hy hz]
  | not a ih =>
    intro v w h hf ht
    cases ht with
    | not ha =>
      simp only [foldC, Option.map_eq_some_iff] at hf
      obtain ⟨y, hy, rfl⟩ := hf
      rw [ih _ _ h hy ha]
  | and a b iha ihb =>
    intro v w h hf ht
    simp only [foldC, Option.bind_eq_some_iff] at hf
    obtain ⟨y, hy, hf⟩ := hf
    cases ht with
    | andF ha => cases iha _ _ h.1 hy ha; cases hf; rfl
    | andT ha hb => cases iha _ _ h.1 hy ha; exact ihb _ _ (h.2 ha) hf hb
  | or a b iha ihb =>
    intro v w h hf ht
    simp only [foldC, Option.bind_eq_some_iff] at hf
    obtain ⟨y, hy, hf⟩ := hf
    cases ht with
    | orT ha => cases iha _ _ h.1 hy ha; cases hf; rfl
    | orF ha hb => cases iha _ _ h.1 hy ha; exact ihb _ _ (h.2 ha) hf hb

theorem range_out {a b k : Nat} (hk : 3 ≤ k) (h : k < 3 * a + 3) : range a b k = false := by
  rw [← Bool.not_eq_true]
  intro hr
  unfold range inner at hr
  simp only [Bool.or_eq_true, Bool.and_eq_true, decide_eq_true_eq, beq_iff_eq] at hr
  omega

/-- The code of a condition with `!`, `&&` and `||` jumps to the label exactly if the condition has the value asked for. -/
theorem C83_logical (E : FEnv) (hE : E.Ok) (σ : Nat → Val) (n : Nat) (hn : n ≤ 5) (t : FC) : ∀ (v jc : Bool) (lab c : Nat) (s : FS), CondsOk E σ t → Truth E.Γ σ t v →
    Within E σ n s → 3 ≤ lab → lab < 3 * c + 3 →
    ∃ s', Within E σ n s' ∧ ∀ rest, frun E.sym ((genC E.Γ E.loc E.stk t jc lab c).1.code ++ rest) none s = frun E.sym rest (if v = jc then some lab else none) s' := by
  have konst : ∀ (v jc : Bool) (lab : Nat) (s : FS), Within E σ n s → ∃ s', Within E σ n s' ∧
      ∀ rest, frun E.sym ((plain (if v = jc then [.jmp lab] else [])).code ++ rest) none s = frun E.sym rest (if v = jc then some lab else none) s' := by
    intro v jc lab s hs
    refine ⟨s, hs, fun rest => ?_⟩
    show frun E.sym ((if _ then _ else _) ++ rest) none s = _
    by_cases h : v = jc
    · rw [if_pos h, if_pos h]; rfl
    · rw [if_neg h, if_neg h]; rfl
  have tail : ∀ (v w : Bool) (lab k : Nat) (s : FS) (rest : List FLine), lab ≠ k →
      frun E.sym ([.jmp lab, .lab k] ++ rest) (if v = w then some k else none) s = frun E.sym rest (if v = !w then some lab else none) s := by
    intro v w lab k s rest hk
    by_cases h : v = w
    · rw [if_pos h, if_neg (by rw [h]; cases w <;> simp)]
      show (if k = k then _ else _) = _
      rw [if_pos rfl]; rfl
    · rw [if_neg h, if_pos (by cases v <;> cases w <;> simp_all)]
      show (if k = lab then _ else _) = _
      rw [if_neg (fun h => hk h.symm)]; rfl
  induction t with
  | leaf e =>
    intro v jc lab c s h ht hs _ _
    cases ht with
    | leaf hz => exact C83_condition E hE σ e _ jc lab n s h hz hs hn
  | not a ih =>
    intro v jc lab c s h ht hs h1 h2
    cases ht with
    | @not _ v ha =>
      obtain ⟨s', w, r⟩ := ih v (!jc) lab c s h ha hs h1 h2
      refine ⟨s', w, fun rest => ?_⟩
      rw [genC, r]
      cases v <;> cases jc <;> rfl
  | and a b iha ihb =>
    intro v jc lab c s h ht hs h1 h2
    have two : ∀ (l d : Nat), 3 ≤ l → l < 3 * d + 3 → ∃ s', Within E σ n s' ∧
        ∀ rest, frun E.sym ((genC E.Γ E.loc E.stk a false l d).1.code ++ (genC E.Γ E.loc E.stk b false l (genC E.Γ E.loc E.stk a false l d).2).1.code ++ rest) none s =
          frun E.sym rest (if v = false then some l else none) s' := by
      intro l d hl hd
      have la := genC_labs E.Γ E.loc E.stk a false l d
      have lb := genC_labs E.Γ E.loc E.stk b false l (genC E.Γ E.loc E.stk a false l d).2
      cases ht with
      | andF ha =>
        obtain ⟨s1, w1, r1⟩ := iha _ false l d s h.1 ha hs hl hd
        refine ⟨s1, w1, fun rest => ?_⟩
        rw [List.append_assoc, r1, if_pos rfl, skip_over E.sym _ _ _ _ _ (range_out hl (by omega)) lb.2]
      | andT ha hb =>
        obtain ⟨s1, w1, r1⟩ := iha _ false l d s h.1 ha hs hl hd
        obtain ⟨s2, w2, r2⟩ := ihb _ false l (genC E.Γ E.loc E.stk a false l d).2 s1 (h.2 ha) hb w1 hl (by omega)
        refine ⟨s2, w2, fun rest => ?_⟩
        rw [List.append_assoc, r1, if_neg (by decide), r2]
    rw [genC]
    cases hf : foldC E.Γ (.and a b) with
    | some y =>
      obtain rfl := foldC_same (fun x => at_has (hs.mem x)) (.and a b) y v h hf ht
      exact konst _ _ _ _ hs
    | none =>
      cases jc with
      | false =>
        obtain ⟨s', w, r⟩ := two lab c h1 h2
        refine ⟨s', w, fun rest => ?_⟩
        show frun E.sym (_ ++ _ ++ [] ++ rest) none s = _
        rw [List.append_nil, r]
      | true =>
        obtain ⟨s', w, r⟩ := two (3 * c + 5) (c + 1) (by omega) (by omega)
        refine ⟨s', w, fun rest => ?_⟩
        show frun E.sym (_ ++ _ ++ [.jmp lab, .lab (3 * c + 5)] ++ rest) none s = _
        rw [List.append_assoc, r]
        exact tail v false lab (3 * c + 5) s' rest (by omega)
  | or a b iha ihb =>
    intro v jc lab c s h ht hs h1 h2
    have two : ∀ (l d : Nat), 3 ≤ l → l < 3 * d + 3 → ∃ s', Within E σ n s' ∧
        ∀ rest, frun E.sym ((genC E.Γ E.loc E.stk a true l d).1.code ++ (genC E.Γ E.loc E.stk b true l (genC E.Γ E.loc E.stk a true l d).2).1.code ++ rest) none s =
          frun E.sym rest (if v = true then some l else none) s' := by
      intro l d hl hd
      have la := genC_labs E.Γ E.loc E.stk a true l d
      have lb := genC_labs E.Γ E.loc E.stk b true l (genC E.Γ E.loc E.stk a true l d).2
      cases ht with
      | orT ha =>
        obtain ⟨s1, w1, r1⟩ := iha _ true l d s h.1 ha hs hl hd
        refine ⟨s1, w1, fun rest => ?_⟩
        rw [List.append_assoc, r1, if_pos rfl, skip_over E.sym _ _ _ _ _ (range_out hl (by omega)) lb.2]
      | orF ha hb =>
        obtain ⟨s1, w1, r1⟩ := iha _ true l d s h.1 ha hs hl hd
        obtain ⟨s2, w2, r2⟩ := ihb _ true l (genC E.Γ E.loc E.stk a true l d).2 s1 (h.2 ha) hb w1 hl (by omega)
        refine ⟨s2, w2, fun rest => ?_⟩
        rw [List.append_assoc, r1, if_neg (by decide), r2]
    rw [genC]
    cases hf : foldC E.Γ (.or a b) with
    | some y =>
      obtain rfl := foldC_same (fun x => at_has (hs.mem x)) (.or a b) y v h hf ht
      exact konst _ _ _ _ hs
    | none =>
      cases jc with
      | true =>
        obtain ⟨s', w, r⟩ := two lab c h1 h2
        refine ⟨s', w, fun rest => ?_⟩
        show frun E.sym (_ ++ _ ++ [] ++ rest) none s = _
        rw [List.append_nil, r]
      | false =>
        obtain ⟨s', w, r⟩ := two (3 * c + 5) (c + 1) (by omega) (by omega)
        refine ⟨s', w, fun rest => ?_⟩
        show frun E.sym (_ ++ _ ++ [.jmp lab, .lab (3 * c + 5)] ++ rest) none s = _
        rw [List.append_assoc, r]
        exact tail v true lab (3 * c + 5) s' rest (by omega)

/-- The conditions for each assignment and condition that is reached, in the values it meets. -/
def Runnable (E : FEnv) : FStm → (Nat → Val) → Prop
  | .skip, _ => True
  | .assign x e, σ => e.Ok E.Γ ∧ e.ty E.Γ = E.Γ x ∧ SoundCasts E.Γ σ e ∧ Kept E.Γ σ e ∧ Comparable E.Γ σ e ∧ E.Alone x ∧
      (E.Γ x = .flo .ldouble → ∀ y, e ≠ .var y) ∧ (genVoid E.Γ E.loc E.stk x e).st ≤ E.K
  | .seq a b, σ => Runnable E a σ ∧ ∀ σ', Exec E σ a σ' → Runnable E b σ'
  | .ifThen c a, σ => CondsOk E σ c ∧ (Truth E.Γ σ c true → Runnable E a σ)
  | .ifElse c a b, σ => CondsOk E σ c ∧ (Truth E.Γ σ c true → Runnable E a σ) ∧ (Truth E.Γ σ c false → Runnable E b σ)

theorem stm_runs (E : FEnv) (hE : E.Ok) (t : FStm) : ∀ (σ σ' : Nat → Val) (c : Nat) (s : FS), Runnable E t σ → Exec E σ t σ' → Within E σ 1 s →
    ∃ s', Within E σ' 1 s' ∧ ∀ rest, frun E.sym ((genStm E.Γ E.loc E.stk t c).1 ++ rest) none s = frun E.sym rest none s' := by
  induction t with
  | skip => intro σ σ' c s _ he hs; cases he; exact ⟨s, hs, fun rest => rfl⟩
  | assign x e =>
    intro σ σ' c s hr he hs
    cases he with
    | assign hv =>
      obtain ⟨h1, h2, h3, h4, h5, h6, h7, h8⟩ := hr
      obtain ⟨s', r1, w1, _⟩ := C82_statement E hE σ x e _ 1 s h1 h2 hv h3 ⟨h4, h5⟩ h7 h6 hs (by omega) h8
      exact ⟨s', w1, fun rest => frun_append _ _ _ _ _ r1⟩
  | seq a b iha ihb =>
    intro σ σ' c s hr he hs
    cases he with
    | seq ea eb =>
      obtain ⟨s1, w1, r1⟩ := iha _ _ c s hr.1 ea hs
      obtain ⟨s2, w2, r2⟩ := ihb _ _ (genStm E.Γ E.loc E.stk a c).2 s1 (hr.2 _ ea) eb w1
      refine ⟨s2, w2, fun rest => ?_⟩
      simp only [genStm]
      rw [List.append_assoc, r1, r2]
  | ifThen e a ih =>
    intro σ σ' c s hr he hs
    have lk := genC_labs E.Γ E.loc E.stk e false (3 * c + 3) (c + 1)
    cases he with
    | thenT hz ea =>
      obtain ⟨s1, w1, r1⟩ := C83_logical E hE σ 1 (by omega) e _ false (3 * c + 3) (c + 1) s hr.1 hz hs (by omega) (by omega)
      obtain ⟨s2, w2, r2⟩ := ih _ _ (genC E.Γ E.loc E.stk e false (3 * c + 3) (c + 1)).2 s1 (hr.2 hz) ea w1
      refine ⟨s2, w2, fun rest => ?_⟩
      simp only [genStm]
      rw [List.append_assoc, List.append_assoc, r1, if_neg (by decide), r2]
      rfl
    | thenF hz =>
      obtain ⟨s1, w1, r1⟩ := C83_logical E hE σ 1 (by omega) e _ false (3 * c + 3) (c + 1) s hr.1 hz hs (by omega) (by omega)
      refine ⟨s1, w1, fun rest => ?_⟩
      simp only [genStm]
      have hp : range (genC E.Γ E.loc E.stk e false (3 * c + 3) (c + 1)).2 (genStm E.Γ E.loc E.stk a (genC E.Γ E.loc E.stk e false (3 * c + 3) (c + 1)).2).2 (3 * c + 3) = false := range_out (by omega) (by omega)
      rw [List.append_assoc, List.append_assoc, r1, if_pos rfl, skip_over E.sym _ _ _ _ _ hp (genStm_labs _ _ _ a (genC E.Γ E.loc E.stk e false (3 * c + 3) (c + 1)).2).2]
      show (if 3 * c + 3 = 3 * c + 3 then _ else _) = _
      rw [if_pos rfl]; rfl
  | ifElse e a b iha ihb =>
    intro σ σ' c s hr he hs
    have lk := genC_labs E.Γ E.loc E.stk e false (3 * c + 3) (c + 1)
    have la := genStm_labs E.Γ E.loc E.stk a (genC E.Γ E.loc E.stk e false (3 * c + 3) (c + 1)).2
    have lb := genStm_labs E.Γ E.loc E.stk b (genStm E.Γ E.loc E.stk a (genC E.Γ E.loc E.stk e false (3 * c + 3) (c + 1)).2).2
    cases he with
    | elseT hz ea =>
      obtain ⟨s1, w1, r1⟩ := C83_logical E hE σ 1 (by omega) e _ false (3 * c + 3) (c + 1) s hr.1 hz hs (by omega) (by omega)
      obtain ⟨s2, w2, r2⟩ := iha _ _ (genC E.Γ E.loc E.stk e false (3 * c + 3) (c + 1)).2 s1 (hr.2.1 hz) ea w1
      refine ⟨s2, w2, fun rest => ?_⟩
      simp only [genStm]
      have hp : range (genStm E.Γ E.loc E.stk a (genC E.Γ E.loc E.stk e false (3 * c + 3) (c + 1)).2).2 (genStm E.Γ E.loc E.stk b (genStm E.Γ E.loc E.stk a (genC E.Γ E.loc E.stk e false (3 * c + 3) (c + 1)).2).2).2 (3 * c + 4) = false := range_out (by omega) (by omega)
      rw [List.append_assoc, List.append_assoc, List.append_assoc, List.append_assoc, r1, if_neg (by decide), r2]
      show (if 3 * c + 3 = 3 * c + 4 then _ else frun E.sym ((genStm E.Γ E.loc E.stk b (genStm E.Γ E.loc E.stk a (genC E.Γ E.loc E.stk e false (3 * c + 3) (c + 1)).2).2).1 ++ _) (some (3 * c + 4)) s2) = _
      rw [if_neg (by omega), skip_over E.sym _ _ _ _ _ hp lb.2]
      show (if 3 * c + 4 = 3 * c + 4 then _ else _) = _
      rw [if_pos rfl]; rfl
    | elseF hz eb =>
      obtain ⟨s1, w1, r1⟩ := C83_logical E hE σ 1 (by omega) e _ false (3 * c + 3) (c + 1) s hr.1 hz hs (by omega) (by omega)
      obtain ⟨s2, w2, r2⟩ := ihb _ _ (genStm E.Γ E.loc E.stk a (genC E.Γ E.loc E.stk e false (3 * c + 3) (c + 1)).2).2 s1 (hr.2.2 hz) eb w1
      refine ⟨s2, w2, fun rest => ?_⟩
      simp only [genStm]
      have hp : range (genC E.Γ E.loc E.stk e false (3 * c + 3) (c + 1)).2 (genStm E.Γ E.loc E.stk a (genC E.Γ E.loc E.stk e false (3 * c + 3) (c + 1)).2).2 (3 * c + 3) = false := range_out (by omega) (by omega)
      rw [List.append_assoc, List.append_assoc, List.append_assoc, List.append_assoc, r1, if_pos rfl, skip_over E.sym _ _ _ _ _ hp la.2]
      show (if 3 * c + 3 = 3 * c + 3 then frun E.sym ((genStm E.Γ E.loc E.stk b (genStm E.Γ E.loc E.stk a (genC E.Γ E.loc E.stk e false (3 * c + 3) (c + 1)).2).2).1 ++ _) none s1 else _) = _
      rw [if_pos rfl, r2]
      rfl

/-- Assignments and branches, nested in any way, leave in the variables what C says. -/
theorem C83_statements (E : FEnv) (hE : E.Ok) (t : FStm) (σ σ' : Nat → Val) (c : Nat) (s : FS) (hr : Runnable E t σ) (he : Exec E σ t σ') (hs : Within E σ 1 s) :
    ∃ s', frun E.sym (genStm E.Γ E.loc E.stk t c).1 none s = some s' ∧ Within E σ' 1 s' := by
  obtain ⟨s', w, r⟩ := stm_runs E hE t σ σ' c s hr he hs
  have := r []
  rw [List.append_nil] at this
  exact ⟨s', this, w⟩

/-- No label with a name is defined twice, and all are numbered from the counter's value before to its value after. -/
theorem C83_labels (Γ : Nat → VTy) (loc : Nat → MemOp) (stk : Nat) (t : FStm) (c : Nat) :
    (namedLabels (genStm Γ loc stk t c).1).Nodup ∧ ∀ k ∈ namedLabels (genStm Γ loc stk t c).1, 3 * c + 3 ≤ k ∧ k < 3 * (genStm Γ loc stk t c).2 + 3 :=
  ⟨genStm_nodup Γ loc stk t c, fun _ hk => named_range (genStm_labs Γ loc stk t c).2 hk⟩

/-- Every label with a name that the code jumps to is defined in it. -/
theorem C83_jumps (Γ : Nat → VTy) (loc : Nat → MemOp) (stk : Nat) (t : FStm) (c : Nat) :
    ∀ k ∈ namedJumps (genStm Γ loc stk t c).1, k ∈ namedLabels (genStm Γ loc stk t c).1 := genStm_jumps Γ loc stk t c

/-- A branch on `!(a < b)` with an operand that is not a number is taken, unlike the value of the same expression stored
(`C63_not_nan`). -/
theorem C83_not_nan (E : FEnv) (hE : E.Ok) (σ : Nat → Val) (op : FCmp) (x y : Nat) (f : FTy) (u v : Fl) (c : Nat) (s : FS) (t : FStm) (σ' : Nat → Val)
    (hx : E.Γ x = .flo f) (hy : E.Γ y = .flo f) (ho : op ≠ .ne) (hu : σ x = .f u) (hv : σ y = .f v) (hn : u = .nan ∨ v = .nan)
    (hK : ∀ jc lab, (genCond E.Γ E.loc E.stk jc lab (.not (.cmp op (.var x) (.var y)))).st ≤ E.K) (ht : Runnable E t σ) (he : Exec E σ t σ') (hs : Within E σ 1 s) :
    ∃ s', frun E.sym (genStm E.Γ E.loc E.stk (.ifThen (.leaf (.not (.cmp op (.var x) (.var y)))) t) c).1 none s = some s' ∧ Within E σ' 1 s' := by
  have hno : ¬ op.Holds u v := by
    unfold FCmp.Holds
    rcases hn with h | h
    · rw [(place_nan _).2 h]; exact ho
    · rw [(place_nan _).2 h]; cases u.place <;> exact ho
  have e1 : Eval E.Γ σ (.var x) (.f u) := hu ▸ .var x
  have e2 : Eval E.Γ σ (.var y) (.f v) := hv ▸ .var y
  exact C83_statements E hE _ σ σ' c s ⟨⟨⟨⟨trivial, trivial, f, hx, hy⟩, rfl⟩, rfl, ⟨trivial, trivial⟩, ⟨trivial, trivial⟩, ⟨trivial, trivial⟩, hK⟩, fun _ => ht⟩
    (.thenT (.leaf (.not (.cmpF e1 e2 hno))) he) hs

/-! Concrete cases: `if (!(a < b)) a = b; else a = a * b - a / b;` with 1.5 and 2.5, and with "not a number" for b. -/

def fxCond : FE := .not (.cmp .lt (.var 0) (.var 1))
def fxIf : FStm := .ifElse (.leaf fxCond) (.assign 0 (.var 1)) (.assign 0 fxExpr)

theorem fxThen (σ : Nat → Val) : Runnable fxEnv (.assign 0 (.var 1)) σ :=
  ⟨trivial, rfl, trivial, trivial, trivial, fxAlone, fun h => absurd h (by decide), by decide⟩

theorem fxElse (σ : Nat → Val) : Runnable fxEnv (.assign 0 fxExpr) σ :=
  ⟨⟨⟨trivial, trivial, .double, rfl, rfl⟩, ⟨trivial, trivial, .double, rfl, rfl⟩, .double, rfl, rfl⟩, rfl, ⟨⟨trivial, trivial⟩, ⟨trivial, trivial⟩⟩,
    ⟨⟨trivial, trivial, fun h => absurd h (by decide)⟩, ⟨trivial, trivial, fun h => absurd h (by decide)⟩, fun h => absurd h (by decide)⟩,
    ⟨⟨trivial, trivial⟩, ⟨trivial, trivial⟩⟩, fxAlone, fun h => absurd h (by decide), by decide⟩

theorem fxRunnable (σ : Nat → Val) : Runnable fxEnv fxIf σ :=
  ⟨⟨⟨⟨trivial, trivial, .double, rfl, rfl⟩, rfl⟩, rfl, ⟨trivial, trivial⟩, ⟨trivial, trivial⟩, ⟨trivial, trivial⟩, fun _ _ => by show (genF true _ _ _ _).st ≤ 4; decide⟩,
    fun _ => fxThen σ, fun _ => fxElse σ⟩

example : ∃ s', frun fxEnv.sym (genStm fxEnv.Γ fxEnv.loc fxEnv.stk fxIf 7).1 none (fxState 0x3f 0xf8 0x40 0x04) = some s' ∧
    At (.flo .double) (.f fxResult) 0x7fffffffdff8#64 s'.g.m := by
  have w : Within fxEnv fxStore 1 (fxState 0x3f 0xf8 0x40 0x04) := { fxWithin with st := by decide }
  have hlt : FCmp.Holds .lt (.fin false (3 * 2 ^ 51) (-52)) (.fin false (5 * 2 ^ 50) (-51)) := by
    exact (host_cmp .lt _ _).1 (by decide +kernel)
  have hc : Eval fxEnv.Γ fxStore fxCond (.i 0) := .not (.cmpT (x := .fin false (3 * 2 ^ 51) (-52)) (y := .fin false (5 * 2 ^ 50) (-51)) (.var 0) (.var 1) hlt)
  obtain ⟨s', h1, h2⟩ := C83_statements fxEnv fxEnv_ok fxIf fxStore _ 7 _ (fxRunnable _) (.elseF (.leaf hc) (.assign fxEval)) w
  exact ⟨s', h1, h2.mem 0⟩

/-- With "not a number" for b the first branch is taken: a becomes that. -/
example : ∃ s', frun fxEnv.sym (genStm fxEnv.Γ fxEnv.loc fxEnv.stk (.ifThen (.leaf fxCond) (.assign 0 (.var 1))) 7).1 none (fxState 0x3f 0xf8 0x7f 0xf8) = some s' ∧
    At (.flo .double) (.f .nan) 0x7fffffffdff8#64 s'.g.m := by
  have w : Within fxEnv (fun x => .f (if x = 0 then .fin false (3 * 2 ^ 51) (-52) else .nan)) 1 (fxState 0x3f 0xf8 0x7f 0xf8) := by
    refine ⟨rfl, rfl, rfl, by decide, fun x => ?_⟩
    rw [fxEnv_addr]
    show decode f64 64 (rd _ _ 8).toNat = if x = 0 then _ else _
    by_cases h : x = 0
    · rw [if_pos h, if_pos h]; decide +kernel
    · rw [if_neg h, if_neg h]; decide +kernel
  obtain ⟨s', h1, h2⟩ := C83_not_nan fxEnv fxEnv_ok _ .lt 0 1 .double _ .nan 7 _ (.assign 0 (.var 1)) _ rfl rfl (by decide) rfl rfl (.inr rfl)
    (fun _ _ => by show (genF true _ _ _ _).st ≤ 4; decide) ⟨trivial, rfl, trivial, trivial, trivial, fxAlone, fun h => absurd h (by decide), by decide⟩ (.assign (.var 1)) w
  exact ⟨s', h1, h2.mem 0⟩

/-- `if (!(a < b && b < a)) a = b; else a = a * b - a / b;`: the condition has a label of its own, for `&&` below `!`. -/
def fxAnd : FC := .not (.and (.leaf (.cmp .lt (.var 0) (.var 1))) (.leaf (.cmp .lt (.var 1) (.var 0))))

theorem fxAnd_ok (σ : Nat → Val) : CondsOk fxEnv σ fxAnd :=
  ⟨⟨⟨trivial, trivial, .double, rfl, rfl⟩, rfl, ⟨trivial, trivial⟩, ⟨trivial, trivial⟩, ⟨trivial, trivial⟩, fun _ _ => by show (genF true _ _ _ _).st ≤ 4; decide⟩,
    fun _ => ⟨⟨trivial, trivial, .double, rfl, rfl⟩, rfl, ⟨trivial, trivial⟩, ⟨trivial, trivial⟩, ⟨trivial, trivial⟩, fun _ _ => by show (genF true _ _ _ _).st ≤ 4; decide⟩⟩

example : ∃ s', frun fxEnv.sym (genStm fxEnv.Γ fxEnv.loc fxEnv.stk (.ifElse fxAnd (.assign 0 (.var 1)) (.assign 0 fxExpr)) 7).1 none (fxState 0x3f 0xf8 0x40 0x04) = some s' ∧
    At (.flo .double) (.f (.fin false (5 * 2 ^ 50) (-51))) 0x7fffffffdff8#64 s'.g.m := by
  have w : Within fxEnv fxStore 1 (fxState 0x3f 0xf8 0x40 0x04) := { fxWithin with st := by decide }
  have h1 : FCmp.Holds .lt (.fin false (3 * 2 ^ 51) (-52)) (.fin false (5 * 2 ^ 50) (-51)) := (host_cmp .lt _ _).1 (by decide +kernel)
  have h2 : ¬ FCmp.Holds .lt (.fin false (5 * 2 ^ 50) (-51)) (.fin false (3 * 2 ^ 51) (-52)) := fun h => absurd ((host_cmp .lt _ _).2 h) (by decide +kernel)
  have hc : Truth fxEnv.Γ fxStore fxAnd true :=
    .not (.andT (.leaf (z := 1) (.cmpT (x := .fin false (3 * 2 ^ 51) (-52)) (y := .fin false (5 * 2 ^ 50) (-51)) (.var 0) (.var 1) h1))
      (.leaf (z := 0) (.cmpF (x := .fin false (5 * 2 ^ 50) (-51)) (y := .fin false (3 * 2 ^ 51) (-52)) (.var 1) (.var 0) h2)))
  obtain ⟨s', r, m⟩ := C83_statements fxEnv fxEnv_ok (.ifElse fxAnd (.assign 0 (.var 1)) (.assign 0 fxExpr)) fxStore _ 7 _ ⟨fxAnd_ok _, fun _ => fxThen _, fun _ => fxElse _⟩ (.elseT hc (.assign (.var 1))) w
  exact ⟨s', r, m.mem 0⟩

example : namedLabels (genStm fxEnv.Γ fxEnv.loc fxEnv.stk (.ifElse fxAnd (.ifThen (.leaf fxCond) (.assign 0 (.var 1))) (.assign 0 fxExpr)) 7).1 = [29, 30, 24, 25] := by decide

example : namedJumps (genStm fxEnv.Γ fxEnv.loc fxEnv.stk (.ifElse fxAnd (.ifThen (.leaf fxCond) (.assign 0 (.var 1))) (.assign 0 fxExpr)) 7).1 = [29, 29, 24, 30, 25] := by decide

end Slimcc.Props
