import Verif.Lemmas.FpJumps
import Verif.Model.FpLoop
/-! Labels of loops, and execution of pieces of a text. -/
set_option autoImplicit false
namespace Slimcc.FP
open Slimcc.Spec Slimcc.Spec.CTy Slimcc.Spec.FP Slimcc.X86 Slimcc.Ty Slimcc.Gen

/-! Labels. -/

/-- The named labels of the text are defined once and have numbers in the range. -/
structure Tidy (a b : Nat) (l : List FLine) : Prop where
  le : a ≤ b
  labs : labs (range a b) l = true
  nodup : (namedLabels l).Nodup

theorem Tidy.append {a b c : Nat} {l m : List FLine} (h1 : Tidy a b l) (h2 : Tidy b c m) : Tidy a c (l ++ m) :=
  ⟨h1.le.trans h2.le, by rw [labs_append, labs_mono (range_mono (Nat.le_refl _) h2.le) h1.labs, labs_mono (range_mono h1.le (Nat.le_refl _)) h2.labs]; rfl,
    nodup_two h1.labs h2.labs h1.nodup h2.nodup⟩

theorem named_lab {k : Nat} (l : List FLine) (h : 3 ≤ k) : namedLabels (.lab k :: l) = k :: namedLabels l := by
  unfold namedLabels; rw [List.filterMap_cons]; simp only [h, if_true]
theorem named_jmp {k : Nat} (l : List FLine) : namedLabels (.jmp k :: l) = namedLabels l := rfl

theorem list_if {P : List Nat} {x m : Nat} (h : P.Nodup) (hb : ∀ k ∈ P, m ≤ k) (hx : x < m) : (P ++ [x]).Nodup := by
  rw [List.nodup_append]
  refine ⟨h, by simp, fun a ha b hb' => ?_⟩
  have := hb a ha
  rw [List.mem_singleton] at hb'; omega
theorem list_else {P Q : List Nat} {x y m : Nat} (h : (P ++ Q).Nodup) (hb : ∀ k ∈ P ++ Q, m ≤ k) (hx : x < m) (hy : y < m) (hxy : x ≠ y) : (P ++ x :: (Q ++ [y])).Nodup := by
  rw [List.nodup_middle, List.nodup_cons, ← List.append_assoc]
  refine ⟨fun hm => ?_, list_if h hb hy⟩
  rw [List.mem_append, List.mem_singleton] at hm
  rcases hm with hm | hm
  · have := hb x hm; omega
  · exact hxy hm
theorem list_loop {P Q : List Nat} {x y z m : Nat} (h : (P ++ Q).Nodup) (hb : ∀ k ∈ P ++ Q, m ≤ k) (hx : x < m) (hy : y < m) (hz : z < m) (hxy : x ≠ y) (hxz : x ≠ z) (hyz : y ≠ z) :
    (z :: (P ++ x :: (Q ++ [y]))).Nodup := by
  rw [List.nodup_cons]
  refine ⟨fun hm => ?_, list_else h hb hx hy hxy⟩
  simp only [List.mem_append, List.mem_cons, List.not_mem_nil, or_false] at hm
  have hP := fun hp => hb z (List.mem_append.2 (.inl hp))
  have hQ := fun hp => hb z (List.mem_append.2 (.inr hp))
  rcases hm with hm | hm | hm | hm
  · have := hP hm; omega
  · exact hxz hm.symm
  · have := hQ hm; omega
  · exact hyz hm.symm

theorem labs_cons {p : Nat → Bool} {x : FLine} {l : List FLine} : labs p (x :: l) = (labs p [x] && labs p l) := labs_append (a := [x])

theorem genC_tidy (Γ : Nat → VTy) (loc : Nat → MemOp) (stk : Nat) (t : FC) (jc : Bool) (lab c : Nat) : Tidy c (genC Γ loc stk t jc lab c).2 (genC Γ loc stk t jc lab c).1.code :=
  ⟨(genC_labs _ _ _ t jc lab c).1, (genC_labs _ _ _ t jc lab c).2, genC_nodup _ _ _ t jc lab c⟩

theorem genL_tidy (Γ : Nat → VTy) (loc : Nat → MemOp) (stk : Nat) (t : LStm) : ∀ kb kc c, Tidy c (genL Γ loc stk t kb kc c).2 (genL Γ loc stk t kb kc c).1 := by
  have low : ∀ {c e : Nat} {l : List FLine}, Tidy (c + 1) e l → ∀ k ∈ namedLabels l, 3 * c + 6 ≤ k := by
    intro c e l h k hk
    have := (named_range h.labs hk).1
    omega
  have up : ∀ {c e : Nat} {l : List FLine}, Tidy (c + 1) e l → labs (range c e) l = true := fun h => labs_mono (range_mono (by omega) (Nat.le_refl _)) h.labs
  have own : ∀ {c e d : Nat} {l : List FLine}, Tidy (c + 1) e l → d < 3 → labs (range c e) [.lab (3 * c + 3 + d)] = true := by
    intro c e d l h hd
    have := h.le
    exact one_lab (range_own (by omega) (by omega))
  have three : ∀ (c e : Nat) (A B : List FLine) (x y z : Nat), Tidy (c + 1) e (A ++ B) → x < 3 → y < 3 → z < 3 → x ≠ y → x ≠ z → y ≠ z → ∀ M, namedLabels M = [] → labs (range c e) M = true →
      Tidy c e ([.lab (3 * c + 3 + z)] ++ A ++ [.lab (3 * c + 3 + x)] ++ B ++ M ++ [.lab (3 * c + 3 + y)]) := by
    intro c e A B x y z h hx hy hz hxy hxz hyz M hM hM'
    have hl := up h
    rw [labs_append, Bool.and_eq_true] at hl
    refine ⟨by have := h.le; omega, ?_, ?_⟩
    · rw [labs_append, labs_append, labs_append, labs_append, labs_append, own h hx, own h hy, own h hz, hl.1, hl.2, hM']; rfl
    · have hn := h.nodup
      rw [named_append] at hn
      have hb := low h
      rw [named_append] at hb
      have : namedLabels ([.lab (3 * c + 3 + z)] ++ A ++ [.lab (3 * c + 3 + x)] ++ B ++ M ++ [.lab (3 * c + 3 + y)]) =
          (3 * c + 3 + z) :: (namedLabels A ++ (3 * c + 3 + x) :: (namedLabels B ++ [3 * c + 3 + y])) := by
        simp only [named_append, hM, named_lab _ (show 3 ≤ 3 * c + 3 + z by omega), named_lab _ (show 3 ≤ 3 * c + 3 + x by omega), named_lab _ (show 3 ≤ 3 * c + 3 + y by omega),
          show namedLabels [] = [] from rfl, List.append_assoc, List.cons_append, List.nil_append, List.append_nil]
      rw [this]
      exact list_loop hn hb (by omega) (by omega) (by omega) (by omega) (by omega) (by omega)
  induction t with
  | skip => exact fun _ _ c => ⟨Nat.le_refl _, rfl, List.nodup_nil⟩
  | brk => exact fun _ _ c => ⟨Nat.le_refl _, rfl, List.nodup_nil⟩
  | cont => exact fun _ _ c => ⟨Nat.le_refl _, rfl, List.nodup_nil⟩
  | assign x e =>
    exact fun _ _ c => ⟨Nat.le_refl _, labs_mono (range_inner _ _) (genVoid_labs _ _ _ _ _), by rw [genL, named_inner (genVoid_labs _ _ _ _ _)]; exact List.nodup_nil⟩
  | seq a b iha ihb => exact fun _ _ c => (iha _ _ c).append (ihb _ _ _)
  | ifThen e a ih =>
    intro kb kc c
    have h := (genC_tidy Γ loc stk e false (3 * c + 3) (c + 1)).append (ih kb kc _)
    refine ⟨?_, ?_, ?_⟩
    · have := h.le; simp only [genL]; omega
    · simp only [genL]; rw [labs_append, up h]; exact own (d := 0) h (by omega)
    · simp only [genL]; exact nodup_snoc h.labs h.nodup (by omega)
  | ifElse e a b iha ihb =>
    intro kb kc c
    have h1 := (genC_tidy Γ loc stk e false (3 * c + 3) (c + 1)).append (iha kb kc _)
    have h := h1.append (ihb kb kc _)
    have hl := up h
    rw [labs_append, Bool.and_eq_true] at hl
    refine ⟨?_, ?_, ?_⟩
    · have := h.le; simp only [genL]; omega
    · simp only [genL]
      rw [labs_append, labs_append, labs_append, hl.1, hl.2, two_lab (range_own (by omega) (by have := h.le; omega)), one_lab (range_own (by omega) (by have := h.le; omega))]; rfl
    · simp only [genL]
      have hn := h.nodup
      rw [named_append] at hn
      have hb := low h
      rw [named_append] at hb
      rw [named_append] at hn hb
      simp only [named_append, named_jmp, named_lab _ (show 3 ≤ 3 * c + 3 by omega), named_lab _ (show 3 ≤ 3 * c + 4 by omega), show namedLabels [] = [] from rfl]
      rw [List.append_assoc _ _ [3 * c + 4], List.append_assoc _ [3 * c + 3], List.singleton_append]
      exact list_else hn hb (by omega) (by omega) (by omega)
  | loop e a i iha ihi =>
    intro kb kc c
    have h := ((genC_tidy Γ loc stk e false (3 * c + 4) (c + 1)).append (iha (3 * c + 4) (3 * c + 5) _)).append (ihi kb kc _)
    have := three c _ _ _ 2 1 0 h (by omega) (by omega) (by omega) (by omega) (by omega) (by omega) [.jmp (3 * c + 3)] rfl rfl
    simp only [genL]
    simpa only [List.append_assoc, List.cons_append, List.nil_append, Nat.add_assoc, Nat.reduceAdd] using this
  | ever a i iha ihi =>
    intro kb kc c
    have h := (iha (3 * c + 4) (3 * c + 5) (c + 1)).append (ihi kb kc _)
    have := three c _ _ _ 2 1 0 h (by omega) (by omega) (by omega) (by omega) (by omega) (by omega) [.jmp (3 * c + 3)] rfl rfl
    simp only [genL]
    simpa only [List.append_assoc, List.cons_append, List.nil_append, Nat.add_assoc, Nat.reduceAdd] using this
  | doWhile a e ih =>
    intro kb kc c
    have h := (ih (3 * c + 4) (3 * c + 5) (c + 1)).append (genC_tidy Γ loc stk e true (3 * c + 3) _)
    have := three c _ _ _ 2 1 0 h (by omega) (by omega) (by omega) (by omega) (by omega) (by omega) [] rfl rfl
    simp only [genL]
    simpa only [List.append_assoc, List.cons_append, List.nil_append, Nat.add_assoc, Nat.reduceAdd] using this

theorem genL_jumps (Γ : Nat → VTy) (loc : Nat → MemOp) (stk : Nat) (t : LStm) : ∀ l kb kc c, t.Placed l → ∀ k ∈ namedJumps (genL Γ loc stk t kb kc c).1,
    k ∈ namedLabels (genL Γ loc stk t kb kc c).1 ∨ l = true ∧ (k = kb ∨ k = kc) := by
  induction t with
  | skip => intro l kb kc c _ k hk; cases hk
  | brk => intro l kb kc c h k hk; exact .inr ⟨h, .inl (jumps_one _ k hk)⟩
  | cont => intro l kb kc c h k hk; exact .inr ⟨h, .inr (jumps_one _ k hk)⟩
  | assign x e => intro l kb kc c _ k hk; rw [genL, jumps_inner (genVoid_goes _ _ _ _ _)] at hk; cases hk
  | seq a b iha ihb =>
    intro l kb kc c h k hk
    simp only [genL, jumps_append, named_append, List.mem_append] at hk ⊢
    rcases hk with hk | hk
    · exact (iha l kb kc _ h.1 k hk).imp .inl id
    · exact (ihb l kb kc _ h.2 k hk).imp .inr id
  | ifThen e a ih =>
    intro l kb kc c h k hk
    have hn : namedLabels [.lab (3 * c + 3)] = [3 * c + 3] := named_lab _ (by omega)
    simp only [genL, jumps_append, named_append, List.mem_append, hn, List.mem_singleton] at hk ⊢
    rcases hk with (hk | hk) | hk
    · exact .inl ((genC_jumps Γ loc stk e _ _ _ k hk).elim .inr fun h => .inl (.inl h))
    · exact (ih l kb kc _ h k hk).imp (fun h => .inl (.inr h)) id
    · cases hk
  | ifElse e a b iha ihb =>
    intro l kb kc c h k hk
    have hn : namedLabels [.lab (3 * c + 4)] = [3 * c + 4] := named_lab _ (by omega)
    have hm : namedLabels [.jmp (3 * c + 4), .lab (3 * c + 3)] = [3 * c + 3] := (named_jmp _).trans (named_lab _ (by omega))
    simp only [genL, jumps_append, named_append, List.mem_append, hn, hm, List.mem_singleton] at hk ⊢
    rcases hk with (((hk | hk) | hk) | hk) | hk
    · exact .inl ((genC_jumps Γ loc stk e _ _ _ k hk).elim (fun h => .inl (.inl (.inr h))) fun h => .inl (.inl (.inl (.inl h))))
    · exact (iha l kb kc _ h.1 k hk).imp (fun h => .inl (.inl (.inl (.inr h)))) id
    · exact .inl (.inr (jumps_one _ k hk))
    · exact (ihb l kb kc _ h.2 k hk).imp (fun h => .inl (.inr h)) id
    · cases hk
  | loop e a i iha ihi =>
    intro l kb kc c h k hk
    have h3 : namedLabels [.lab (3 * c + 3)] = [3 * c + 3] := named_lab _ (by omega)
    have h5 : namedLabels [.lab (3 * c + 5)] = [3 * c + 5] := named_lab _ (by omega)
    have h4 : namedLabels [.jmp (3 * c + 3), .lab (3 * c + 4)] = [3 * c + 4] := (named_jmp _).trans (named_lab _ (by omega))
    simp only [genL, jumps_append, named_append, List.mem_append, h3, h4, h5, List.mem_singleton] at hk ⊢
    refine .inl ?_
    rcases hk with ((((hk | hk) | hk) | hk) | hk) | hk
    · cases hk
    · exact (genC_jumps Γ loc stk e _ _ _ k hk).elim .inr fun h => .inl (.inl (.inl (.inl (.inr h))))
    · rcases iha true _ _ _ h.1 k hk with h | ⟨_, h | h⟩
      · exact .inl (.inl (.inl (.inr h)))
      · exact .inr h
      · exact .inl (.inl (.inr h))
    · cases hk
    · exact (ihi false kb kc _ h.2 k hk).elim (fun h => .inl (.inr h)) fun h => absurd h.1 (by decide)
    · exact .inl (.inl (.inl (.inl (.inl (jumps_one _ k hk)))))
  | ever a i iha ihi =>
    intro l kb kc c h k hk
    have h3 : namedLabels [.lab (3 * c + 3)] = [3 * c + 3] := named_lab _ (by omega)
    have h5 : namedLabels [.lab (3 * c + 5)] = [3 * c + 5] := named_lab _ (by omega)
    have h4 : namedLabels [.jmp (3 * c + 3), .lab (3 * c + 4)] = [3 * c + 4] := (named_jmp _).trans (named_lab _ (by omega))
    simp only [genL, jumps_append, named_append, List.mem_append, h3, h4, h5, List.mem_singleton] at hk ⊢
    refine .inl ?_
    rcases hk with (((hk | hk) | hk) | hk) | hk
    · cases hk
    · rcases iha true _ _ _ h.1 k hk with h | ⟨_, h | h⟩
      · exact .inl (.inl (.inl (.inr h)))
      · exact .inr h
      · exact .inl (.inl (.inr h))
    · cases hk
    · exact (ihi false kb kc _ h.2 k hk).elim (fun h => .inl (.inr h)) fun h => absurd h.1 (by decide)
    · exact .inl (.inl (.inl (.inl (jumps_one _ k hk))))
  | doWhile a e ih =>
    intro l kb kc c h k hk
    have h3 : namedLabels [.lab (3 * c + 3)] = [3 * c + 3] := named_lab _ (by omega)
    have h5 : namedLabels [.lab (3 * c + 5)] = [3 * c + 5] := named_lab _ (by omega)
    have h4 : namedLabels [.lab (3 * c + 4)] = [3 * c + 4] := named_lab _ (by omega)
    simp only [genL, jumps_append, named_append, List.mem_append, h3, h4, h5, List.mem_singleton] at hk ⊢
    refine .inl ?_
    rcases hk with (((hk | hk) | hk) | hk) | hk
    · cases hk
    · rcases ih true _ _ _ h k hk with h | ⟨_, h | h⟩
      · exact .inl (.inl (.inl (.inr h)))
      · exact .inr h
      · exact .inl (.inl (.inr h))
    · cases hk
    · exact (genC_jumps Γ loc stk e _ _ _ k hk).elim (fun h => .inl (.inl (.inl (.inl h)))) fun h => .inl (.inr h)
    · cases hk

/-! Execution of a piece of text. -/

/-- Execution to the end of a piece of text, with the label looked for at its end. -/
def seg (sym : Nat → Word) : List FLine → Option Nat → FS → Option (Option Nat × FS)
  | [], t, s => some (t, s)
  | .lab k :: l, some n, s => if k = n then seg sym l none s else seg sym l (some n) s
  | _ :: l, some n, s => seg sym l (some n) s
  | .i i :: l, none, s => (fexec sym i s).bind (seg sym l none)
  | .lab _ :: l, none, s => seg sym l none s
  | .jmp n :: l, none, s => seg sym l (some n) s
  | .jcc c n :: l, none, s =>
    match s.g.f with
    | some f => if c.holds f then seg sym l (some n) s else seg sym l none s
    | none => none

theorem frun_seg (sym : Nat → Word) (A rest : List FLine) : ∀ t s, frun sym (A ++ rest) t s = (seg sym A t s).bind fun p => frun sym rest p.1 p.2 := by
  induction A with
  | nil => intro t s; rfl
  | cons x A ih =>
    intro t s
    cases t with
    | some n =>
      cases x with
      | lab k =>
        rw [List.cons_append, frun, seg]
        split <;> exact ih _ _
      | _ => exact ih _ _
    | none =>
      cases x with
      | i i =>
        rw [List.cons_append, frun, seg]
        cases fexec sym i s with
        | none => rfl
        | some s' => exact ih _ _
      | lab k => exact ih _ _
      | jmp n => exact ih _ _
      | jcc c n =>
        rw [List.cons_append, frun, seg]
        cases s.g.f with
        | none => rfl
        | some f => dsimp only; split <;> exact ih _ _

theorem seg_of_run {sym : Nat → Word} {A : List FLine} {s s' : FS} (h : frun sym A none s = some s') : seg sym A none s = some (none, s') := by
  have := frun_seg sym A [] none s
  rw [List.append_nil, h] at this
  cases hs : seg sym A none s with
  | none => rw [hs] at this; cases this
  | some p =>
    rw [hs] at this
    obtain ⟨t, s1⟩ := p
    cases t with
    | none => cases this; rfl
    | some n => cases this

theorem seg_of_rests {sym : Nat → Word} {A : List FLine} {s s' : FS} {t : Option Nat} (h : ∀ rest, frun sym (A ++ rest) none s = frun sym rest t s') : seg sym A none s = some (t, s') := by
  cases t with
  | none =>
    have := h []
    rw [List.append_nil] at this
    exact seg_of_run this
  | some k =>
    have h0 := h []
    have h1 := h [.lab k]
    rw [frun_seg] at h0 h1
    have e : frun sym [.lab k] (some k) s' = some s' := by rw [frun, if_pos rfl]; rfl
    rw [e] at h1
    cases hs : seg sym A none s with
    | none => rw [hs] at h1; cases h1
    | some p =>
      obtain ⟨t, s1⟩ := p
      rw [hs] at h0 h1
      cases t with
      | none => cases h0
      | some n =>
        change frun sym [.lab k] (some n) s1 = some s' at h1
        rw [frun] at h1
        split at h1
        · rename_i hk; cases h1; rw [hk]
        · cases h1

section
variable {sym : Nat → Word} {prog : List FLine}

/-- Where execution goes on after a piece of text. -/
def land (prog rest : List FLine) : Option Nat → FS → Conf
  | none, s => (rest, none, s)
  | some n, s => jumpTo prog rest n s

theorem Steps.one {a b : Conf} (h : lstep sym prog a = some b) : Steps sym prog a b := .single h
theorem Steps.trans {a b c : Conf} (h1 : Steps sym prog a b) (h2 : Steps sym prog b c) : Steps sym prog a c := Relation.ReflTransGen.trans h1 h2

/-- Execution has one end. -/
theorem steps_only {a : Conf} {u v : Option Nat} {s1 s2 : FS} (h1 : Steps sym prog a ([], u, s1)) (h2 : Steps sym prog a ([], v, s2)) : u = v ∧ s1 = s2 := by
  unfold Steps at h1 h2
  induction h1 using Relation.ReflTransGen.head_induction_on with
  | refl =>
    rcases Relation.ReflTransGen.cases_head h2 with h | ⟨b, hb, _⟩
    · cases h; exact ⟨rfl, rfl⟩
    · cases hb
  | head h _ ih =>
    rcases Relation.ReflTransGen.cases_head h2 with e | ⟨b, hb, h3⟩
    · subst e; cases h
    · rw [h] at hb; cases hb; exact ih h3

theorem can_less {n : Nat} : ∀ {a : Conf}, Can sym prog (n + 1) a → Can sym prog n a := by
  induction n with
  | zero => exact fun _ => trivial
  | succ n ih => exact fun ⟨b, h, hb⟩ => ⟨b, h, ih hb⟩
theorem can_steps {n : Nat} {a b : Conf} (h : Steps sym prog a b) (hb : Can sym prog n b) : Can sym prog n a := by
  unfold Steps at h
  induction h using Relation.ReflTransGen.head_induction_on with
  | refl => exact hb
  | head h _ ih => exact can_less ⟨_, h, ih⟩
/-- Execution that goes on for ever has no end. -/
theorem can_end {a : Conf} {u : Option Nat} {s : FS} (h : Steps sym prog a ([], u, s)) (hc : ∀ n, Can sym prog n a) : False := by
  unfold Steps at h
  induction h using Relation.ReflTransGen.head_induction_on with
  | refl => obtain ⟨b, hb, _⟩ := hc 1; cases hb
  | head h _ ih =>
    refine ih fun n => ?_
    obtain ⟨b, hb, hn⟩ := hc (n + 1)
    rw [h] at hb; cases hb; exact hn

theorem scan {k : Nat} (r : List FLine) (s : FS) (hk : 3 ≤ k) (pre : List FLine) (h : k ∉ namedLabels pre) : Steps sym prog (pre ++ .lab k :: r, some k, s) (.lab k :: r, none, s) := by
  induction pre with
  | nil => exact .one (by show (if k = k then _ else _) = _; rw [if_pos rfl])
  | cons x pre ih =>
    cases x with
    | lab j =>
      have hj : j ≠ k := by rintro rfl; rw [named_lab _ hk] at h; exact h (List.mem_cons_self ..)
      have ht : k ∉ namedLabels pre := fun hm => h (by
        rw [show FLine.lab j :: pre = [.lab j] ++ pre from rfl, named_append]; exact List.mem_append.2 (.inr hm))
      refine (Steps.one ?_).trans (ih ht)
      show (if j = k then _ else _) = _
      rw [if_neg hj]; rfl
    | i j => exact (Steps.one rfl).trans (ih h)
    | jmp j => exact (Steps.one rfl).trans (ih h)
    | jcc c j => exact (Steps.one rfl).trans (ih h)

/-- A jump to a named label. -/
theorem found (hn : (namedLabels prog).Nodup) {k : Nat} (hk : 3 ≤ k) {pre r : List FLine} (hp : prog = pre ++ .lab k :: r) (x : List FLine) (s : FS) :
    Steps sym prog (land prog x (some k) s) (.lab k :: r, none, s) := by
  have h : k ∉ namedLabels pre := by
    intro hm
    rw [hp, named_append, named_lab _ hk, List.nodup_append] at hn
    exact hn.2.2 k hm k (List.mem_cons_self ..) rfl
  show Steps sym prog (jumpTo prog x k s) _
  unfold jumpTo
  rw [if_neg (by omega)]
  have := scan (sym := sym) (prog := prog) r s hk pre h
  rwa [← hp] at this

theorem seg_steps (hn : (namedLabels prog).Nodup) (post : List FLine) (A : List FLine) : ∀ (pre : List FLine) (t0 : Option Nat) (s : FS) (t : Option Nat) (s1 : FS),
    prog = pre ++ (A ++ post) → seg sym A t0 s = some (t, s1) → Steps sym prog (land prog (A ++ post) t0 s) (land prog post t s1) := by
  induction A with
  | nil => intro pre t0 s t s1 _ h; cases h; exact .refl
  | cons x A ih =>
    intro pre t0 s t s1 hp h
    have hp' : prog = (pre ++ [x]) ++ (A ++ post) := by rw [hp]; simp
    have ih' := fun t0 s h => ih (pre ++ [x]) t0 s t s1 hp' h
    cases t0 with
    | none =>
      cases x with
      | i i =>
        rw [seg, Option.bind_eq_some_iff] at h
        obtain ⟨s2, h2, h⟩ := h
        refine (Steps.one ?_).trans (ih' none s2 h)
        show (fexec sym i s).map _ = _
        rw [h2]; rfl
      | lab k => exact (Steps.one rfl).trans (ih' none s h)
      | jmp n => exact (Steps.one rfl).trans (ih' (some n) s h)
      | jcc c n =>
        rw [seg] at h
        cases hf : s.g.f with
        | none => rw [hf] at h; cases h
        | some f =>
          rw [hf] at h
          dsimp only at h
          split at h
          · rename_i hc
            refine (Steps.one ?_).trans (ih' (some n) s h)
            show (match s.g.f with | some f => _ | none => _) = _
            rw [hf]; dsimp only; rw [if_pos hc]; rfl
          · rename_i hc
            refine (Steps.one ?_).trans (ih' none s h)
            show (match s.g.f with | some f => _ | none => _) = _
            rw [hf]; dsimp only; rw [if_neg hc]; rfl
    | some n =>
      by_cases hs : n < 3
      · have l1 : ∀ r : List FLine, land prog r (some n) s = (r, some n, s) := fun r => by show jumpTo prog r n s = _; unfold jumpTo; rw [if_pos hs]
        rw [l1]
        cases x with
        | lab k =>
          rw [seg] at h
          split at h
          · rename_i hk
            refine (Steps.one (b := (.lab k :: (A ++ post), none, s)) ?_).trans ((Steps.one rfl).trans (ih' none s h))
            show (if k = n then _ else _) = _
            rw [if_pos hk]; rfl
          · rename_i hk
            refine (Steps.one ?_).trans (l1 _ ▸ ih' (some n) s h)
            show (if k = n then _ else _) = _
            rw [if_neg hk]; rfl
        | i i => exact (Steps.one rfl).trans (l1 _ ▸ ih' (some n) s h)
        | jmp j => exact (Steps.one rfl).trans (l1 _ ▸ ih' (some n) s h)
        | jcc c j => exact (Steps.one rfl).trans (l1 _ ▸ ih' (some n) s h)
      · have l1 : ∀ r r' : List FLine, land prog r (some n) s = land prog r' (some n) s := fun r r' => by
          show jumpTo prog r n s = jumpTo prog r' n s; unfold jumpTo; rw [if_neg hs, if_neg hs]
        cases x with
        | lab k =>
          rw [seg] at h
          split at h
          · rename_i hk
            subst hk
            exact (found hn (by omega) hp _ s).trans ((Steps.one rfl).trans (ih' none s h))
          · rw [l1 _ (A ++ post)]; exact ih' (some n) s h
        | i i => rw [l1 _ (A ++ post)]; exact ih' (some n) s h
        | jmp j => rw [l1 _ (A ++ post)]; exact ih' (some n) s h
        | jcc c j => rw [l1 _ (A ++ post)]; exact ih' (some n) s h

end
end Slimcc.FP
