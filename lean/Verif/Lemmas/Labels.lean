import Verif.Lemmas.GenCtl
/-! Generated labels are unique. -/
set_option autoImplicit false
namespace Slimcc
open Slimcc.Spec Slimcc.Spec.CTy Slimcc.Ty Slimcc.X86 Slimcc.Gen

def lab? : Line → Option Label
  | .lab l => some l
  | _ => none

def labs (c : List Line) : List Label := c.filterMap lab?

def lnum : Label → Option Nat
  | .short n | .fall n | .else_ n | .end_ n | .begin n | .rtn n => some n
  | .name _ => none

theorem labs_append (a b : List Line) : labs (a ++ b) = labs a ++ labs b := List.filterMap_append
theorem labs_ins (l : List Ins) : labs (l.map .ins) = [] := by
  induction l with
  | nil => rfl
  | cons i l ih => exact ih

/-- The labels of a piece of code: those in `S`, and new ones. -/
def FreshP (i : Nat) (S : List Label) (g : G) : Prop :=
  ∀ c, i < c → c ≤ (g c).2 ∧ (labs (g c).1.code).Nodup ∧ ∀ l ∈ labs (g c).1.code, l ∈ S ∨ ∃ n, lnum l = some n ∧ c ≤ n ∧ n < (g c).2

def Fresh (g : G) : Prop :=
  ∀ c, c ≤ (g c).2 ∧ (labs (g c).1.code).Nodup ∧ ∀ l ∈ labs (g c).1.code, ∃ n, lnum l = some n ∧ c ≤ n ∧ n < (g c).2

theorem Fresh.p {g : G} (h : Fresh g) (i : Nat) : FreshP i [] g := fun c _ => ⟨(h c).1, (h c).2.1, fun l hl => Or.inr ((h c).2.2 l hl)⟩

theorem fresh_lines (l : List Line) (h : labs l = []) : Fresh (lines l) := by
  intro c
  show c ≤ c ∧ (labs l).Nodup ∧ _
  rw [h]
  exact ⟨Nat.le_refl _, List.nodup_nil, fun l hl => by simp [lines, h] at hl⟩

theorem fresh_inss (l : List Ins) : Fresh (inss l) := fresh_lines _ (labs_ins l)

theorem freshP_lines (i : Nat) (l : List Line) (h : (labs l).Nodup) : FreshP i (labs l) (lines l) :=
  fun c _ => ⟨Nat.le_refl _, h, fun _ hl => Or.inl hl⟩

theorem freshP_seq {i : Nat} {S T : List Label} {a b : G} (ha : FreshP i S a) (hb : FreshP i T b) (hS : ∀ l ∈ S, lnum l = some i) (hT : ∀ l ∈ T, lnum l = some i)
    (hd : ∀ l ∈ S, l ∉ T) : FreshP i (S ++ T) (a ;; b) := by
  intro c hc
  obtain ⟨a1, a2, a3⟩ := ha c hc
  obtain ⟨b1, b2, b3⟩ := hb (a c).2 (by omega)
  refine ⟨Nat.le_trans a1 b1, ?_, ?_⟩
  · show (labs ((a c).1.code ++ (b (a c).2).1.code)).Nodup
    rw [labs_append, List.nodup_append]
    refine ⟨a2, b2, fun l hl m hm e => ?_⟩
    subst e
    rcases a3 l hl with h1 | ⟨n, h1, h2, h3⟩ <;> rcases b3 l hm with h4 | ⟨k, h4, h5, h6⟩
    · exact hd l h1 h4
    · have := hS l h1; rw [h4] at this; injection this; omega
    · have := hT l h4; rw [h1] at this; injection this; omega
    · rw [h1] at h4; injection h4; omega
  · intro l hl
    have hl' : l ∈ labs ((a c).1.code ++ (b (a c).2).1.code) := hl
    rw [labs_append, List.mem_append] at hl'
    show l ∈ S ++ T ∨ ∃ n, lnum l = some n ∧ c ≤ n ∧ n < (b (a c).2).2
    rcases hl' with h | h
    · rcases a3 l h with h1 | ⟨n, h1, h2, h3⟩
      · exact Or.inl (List.mem_append_left _ h1)
      · exact Or.inr ⟨n, h1, h2, by omega⟩
    · rcases b3 l h with h1 | ⟨n, h1, h2, h3⟩
      · exact Or.inl (List.mem_append_right _ h1)
      · exact Or.inr ⟨n, h1, by omega, h3⟩

theorem fresh_seq {a b : G} (ha : Fresh a) (hb : Fresh b) : Fresh (a ;; b) := by
  intro c
  obtain ⟨a1, a2, a3⟩ := ha c
  obtain ⟨b1, b2, b3⟩ := hb (a c).2
  refine ⟨Nat.le_trans a1 b1, ?_, ?_⟩
  · show (labs ((a c).1.code ++ (b (a c).2).1.code)).Nodup
    rw [labs_append, List.nodup_append]
    refine ⟨a2, b2, fun l hl m hm e => ?_⟩
    subst e
    obtain ⟨n, h1, h2, h3⟩ := a3 l hl
    obtain ⟨k, h4, h5, h6⟩ := b3 l hm
    rw [h1] at h4; injection h4; omega
  · intro l hl
    have hl' : l ∈ labs ((a c).1.code ++ (b (a c).2).1.code) := hl
    rw [labs_append, List.mem_append] at hl'
    show ∃ n, lnum l = some n ∧ c ≤ n ∧ n < (b (a c).2).2
    rcases hl' with h | h
    · obtain ⟨n, h1, h2, h3⟩ := a3 l h
      exact ⟨n, h1, h2, by omega⟩
    · obtain ⟨n, h1, h2, h3⟩ := b3 l h
      exact ⟨n, h1, by omega, h3⟩

theorem fresh_with {f : Nat → G} {S : Nat → List Label} (h : ∀ i, FreshP i (S i) (f i)) (hS : ∀ i, ∀ l ∈ S i, lnum l = some i) : Fresh (withLabel f) := by
  intro c
  obtain ⟨a1, a2, a3⟩ := h c (c + 1) (by omega)
  refine ⟨by show c ≤ (f c (c + 1)).2; omega, a2, fun l hl => ?_⟩
  rcases a3 l hl with h1 | ⟨n, h1, h2, h3⟩
  · exact ⟨c, hS c l h1, Nat.le_refl _, by show c < (f c (c + 1)).2; omega⟩
  · exact ⟨n, h1, by omega, h3⟩

theorem fresh_tmp {push : TLoc → List Ins} {body : G} {pop : TLoc → List Ins} (h : Fresh body) : Fresh (tmp push body pop) := by
  intro c
  have e : labs (tmp push body pop c).1.code = labs (body c).1.code := by
    simp only [tmp, labs_append, labs_ins, List.nil_append, List.append_nil]
  have e2 : (tmp push body pop c).2 = (body c).2 := rfl
  rw [e, e2]
  exact h c

section
variable (hs : HostShift) (opt : Bool) (loc : Nat → MemOp) (stk : Nat)

theorem fresh_logical {recC : Bool → Label → Node → G} (h : ∀ j l n, Fresh (recC j l n)) (isOr : Bool) (a b : Node) (flip : Bool) : Fresh (logical recC isOr a b flip) := by
  refine fresh_with (S := fun i => [] ++ ([] ++ [.short i, .fall i])) (fun i => ?_) (by intro i l hl; simp at hl; rcases hl with rfl | rfl <;> rfl)
  refine freshP_seq ((h _ _ _).p i) (freshP_seq ((h _ _ _).p i) ?_ (by simp) (by intro l hl; simp at hl; rcases hl with rfl | rfl <;> rfl) (by simp)) (by simp)
    (by intro l hl; simp at hl; rcases hl with rfl | rfl <;> rfl) (by simp)
  have := fun z o => freshP_lines i [(if (isOr ^^ flip) = true then .ins z else .ins o), .jmp (.fall i), .lab (.short i), (if (isOr ^^ flip) = true then .ins o else .ins z), .lab (.fall i)]
  cases isOr <;> cases flip <;> exact this _ _ (by show [Label.short i, Label.fall i].Nodup; simp)

theorem fresh_arithOpt2 {rec : Node → G} (h : ∀ n, Fresh (rec n)) (k : ArOp) (op : Alu) (sz : Nat) (l r : Node) (pass : Nat) (g : G)
    (hg : arithOpt2 hs loc rec k op sz l r pass = some g) : Fresh g := by
  unfold arithOpt2 at hg
  repeat' split at hg
  all_goals first
    | (injection hg with hg; subst hg; exact fresh_seq (h _) (fresh_inss _))
    | cases hg

theorem fresh_orElse {a : Option G} {b : Unit → Option G} {g : G} (ha : ∀ g, a = some g → Fresh g) (hb : ∀ g, b () = some g → Fresh g) (h : a.orElse b = some g) : Fresh g := by
  cases a with
  | none => exact hb g h
  | some x => exact ha g h

theorem fresh_arithOpt {rec : Node → G} (h : ∀ n, Fresh (rec n)) (sz : Nat) (k : ArOp) (a b : Node) (g : G) (hg : arithOpt hs loc rec sz k a b = some g) : Fresh g := by
  unfold arithOpt at hg
  split at hg
  · cases hg
  · rename_i op _
    have pass : ∀ i g, ((arithOpt2 hs loc rec k op sz a b i).orElse fun _ => if k = .sub then none else arithOpt2 hs loc rec k op sz b a i) = some g → Fresh g := by
      intro i g hg
      refine fresh_orElse (fun g hg => fresh_arithOpt2 hs loc h k op sz a b i g hg) (fun g hg => ?_) hg
      split at hg
      · cases hg
      · exact fresh_arithOpt2 hs loc h k op sz b a i g hg
    exact fresh_orElse (pass 0) (fun g hg => fresh_orElse (pass 1) (fun g hg => fresh_orElse (pass 2) (pass 3) hg) hg) hg

theorem fresh_cmpOpt2 {rec : Node → G} (h : ∀ n, Fresh (rec n)) (l r : Node) (g : G) (hg : cmpOpt2 hs loc rec l r = some g) : Fresh g := by
  unfold cmpOpt2 at hg
  repeat' split at hg
  all_goals first
    | (injection hg with hg; subst hg; first | exact fresh_inss _ | exact fresh_seq (h _) (fresh_inss _))
    | cases hg

theorem fresh_cmpOpt {rec : Node → G} (h : ∀ n, Fresh (rec n)) (op op' : CmpOp) (a b : Node) (g : G) (hg : cmpOpt hs loc rec op a b = some (g, op')) : Fresh g := by
  unfold cmpOpt at hg
  split at hg
  · rename_i hc
    simp only [Option.some.injEq, Prod.mk.injEq] at hg
    rw [hg.1] at hc
    exact fresh_cmpOpt2 hs loc h a b g hc
  · split at hg
    · rename_i hc
      simp only [Option.some.injEq, Prod.mk.injEq] at hg
      rw [hg.1] at hc
      exact fresh_cmpOpt2 hs loc h b a g hc
    · cases hg

theorem fresh_binary {rec : Node → G} (h : ∀ n, Fresh (rec n)) (a b : Node) (k : Reg → List Ins) : Fresh (binary stk rec a b k) :=
  fresh_seq (h a) (fresh_tmp (h b))

theorem fresh_genBoolOpt {recE : Node → G} {recC : Bool → Label → Node → G} (hE : ∀ n, Fresh (recE n)) (hC : ∀ j l n, Fresh (recC j l n)) (n : Node) (g : G)
    (hg : genBoolOpt hs opt recE recC n = some g) : Fresh g := by
  unfold genBoolOpt at hg
  repeat' split at hg
  all_goals first
    | (injection hg with hg; subst hg; first | exact hE _ | exact fresh_logical hC _ _ _ _ | exact fresh_seq (hE _) (fresh_inss _))
    | cases hg

theorem fresh_loadOpt (n : Node) (g : G) (hg : loadOpt loc n = some g) : Fresh g := by
  unfold loadOpt at hg
  repeat' split at hg
  all_goals first
    | (injection hg with hg; subst hg; exact fresh_inss _)
    | cases hg

theorem fresh_gpOpt {rec : Node → G} (h : ∀ n, Fresh (rec n)) (n : Node) (g : G) (hg : gpOpt hs loc rec n = some g) : Fresh g := by
  unfold gpOpt at hg
  split at hg
  · repeat' split at hg
    all_goals first
      | (injection hg with hg; subst hg; exact fresh_seq (h _) (fresh_inss _))
      | cases hg
  · split at hg
    · simp only [Option.map_eq_some_iff] at hg
      obtain ⟨l, _, rfl⟩ := hg
      exact fresh_seq (h _) (fresh_inss _)
    · cases hg
  · split at hg
    · simp only [Option.map_eq_some_iff] at hg
      obtain ⟨l, _, rfl⟩ := hg
      exact fresh_seq (h _) (fresh_inss _)
    · cases hg
  · exact fresh_arithOpt hs loc h _ _ _ _ g hg
  · split at hg
    · rename_i hc
      injection hg with hg
      subst hg
      exact fresh_seq (fresh_cmpOpt hs loc h _ _ _ _ _ hc) (fresh_inss _)
    · cases hg
  · cases hg

theorem fresh_truncOpt {rec : Node → G} (h : ∀ n, Fresh (rec n)) (n : Node) (g : G) (hg : truncOpt hs loc rec n = some g) : Fresh g := by
  unfold truncOpt at hg
  split at hg
  · split at hg
    · exact fresh_arithOpt hs loc h _ _ _ _ g hg
    · cases hg
  · cases hg

theorem fresh_exprOpt {recE : Node → G} {recC : Bool → Label → Node → G} (hE : ∀ n, Fresh (recE n)) (hC : ∀ j l n, Fresh (recC j l n)) (n : Node) (g : G)
    (hg : exprOpt hs opt loc recE recC n = some g) : Fresh g := by
  unfold exprOpt at hg
  split at hg
  · injection hg with hg; subst hg; exact fresh_inss _
  · split at hg
    · rename_i hl; injection hg with hg; subst hg; exact fresh_loadOpt loc n _ hl
    · split at hg
      · injection hg with hg; subst hg; exact fresh_inss _
      · split at hg
        · injection hg with hg; subst hg; exact fresh_seq (hE _) (fresh_inss _)
        · split at hg
          · rename_i hl; injection hg with hg; subst hg; exact fresh_genBoolOpt hs opt hE hC n _ hl
          · split at hg
            · rename_i hl; injection hg with hg; subst hg; exact fresh_gpOpt hs loc hE n _ hl
            · split at hg
              · rename_i hl; injection hg with hg; subst hg; exact fresh_truncOpt hs loc hE n _ hl
              · split at hg
                · split at hg
                  · injection hg with hg
                    subst hg
                    split <;> exact hE _
                  · cases hg
                · cases hg

theorem fresh_ite {C A B : Nat → G} (hC : ∀ i, Fresh (C i)) (hA : ∀ i, Fresh (A i)) (hB : ∀ i, Fresh (B i)) :
    Fresh (withLabel fun i => C i ;; A i ;; lines [.jmp (.end_ i), .lab (.else_ i)] ;; B i ;; lines [.lab (.end_ i)]) := by
  refine fresh_with (S := fun i => [] ++ ([] ++ ([.else_ i] ++ ([] ++ [.end_ i])))) (fun i => ?_) (by intro i l hl; simp at hl; rcases hl with rfl | rfl <;> rfl)
  have n2 : ∀ l ∈ ([.else_ i, .end_ i] : List Label), lnum l = some i := by intro l hl; simp at hl; rcases hl with rfl | rfl <;> rfl
  have n1 : ∀ l ∈ ([.end_ i] : List Label), lnum l = some i := fun l hl => n2 l (by simp at hl ⊢; exact Or.inr hl)
  have n0 : ∀ l ∈ ([.else_ i] : List Label), lnum l = some i := fun l hl => n2 l (by simp at hl ⊢; exact Or.inl hl)
  refine freshP_seq ((hC i).p i) (freshP_seq ((hA i).p i) (freshP_seq ?_ (freshP_seq ((hB i).p i) ?_ (by simp) n1 (by simp)) n0 n1 (by simp)) (by simp) n2 (by simp)) (by simp) n2 (by simp)
  · exact freshP_lines i [.jmp (.end_ i), .lab (.else_ i)] (by show [Label.else_ i].Nodup; simp)
  · exact freshP_lines i [.lab (.end_ i)] (by show [Label.end_ i].Nodup; simp)

theorem fresh_exprPlain {recE recV : Node → G} {recC : Bool → Label → Node → G} (hE : ∀ n, Fresh (recE n)) (hV : ∀ n, Fresh (recV n)) (hC : ∀ j l n, Fresh (recC j l n)) (n : Node) :
    Fresh (exprPlain hs opt loc stk recE recV recC n) := by
  cases n with
  | null t => exact fresh_lines _ rfl
  | num t v => exact fresh_inss _
  | un op t e => cases op <;> first | exact hE _ | exact fresh_seq (hE _) (fresh_inss _)
  | var t x => exact fresh_inss _
  | assign t x r => exact fresh_seq (fresh_inss _) (fresh_tmp (hE _))
  | arithAssign k t x r => exact fresh_seq (fresh_inss _) (fresh_tmp (fresh_seq (fresh_inss _) (hE _)))
  | postIncDec t x r => exact fresh_seq (fresh_inss _) (fresh_tmp (fresh_tmp (hE _)))
  | comma a b => exact fresh_seq (hV _) (hE _)
  | cast t e =>
    simp only [exprPlain]
    split
    · exact hE _
    · exact fresh_seq (hE _) (fresh_inss _)
  | cond t c a b => exact fresh_ite (fun i => hC _ _ _) (fun i => hE _) (fun i => hE _)
  | not e => exact fresh_seq (hE _) (fresh_inss _)
  | logand a b => exact fresh_logical hC _ _ _ _
  | logor a b => exact fresh_logical hC _ _ _ _
  | shift k t a b => exact fresh_seq (hE _) (fresh_tmp (fresh_seq (hE _) (fresh_inss _)))
  | bin k t a b => exact fresh_binary stk hE _ _ _
  | cmp op a b => exact fresh_binary stk hE _ _ _

theorem fresh_over {X : Label → Node → G} {l : Label} {a b : Node} (hX : ∀ l n, Fresh (X l n)) :
    Fresh (withLabel fun i => X (.short i) a ;; X (.short i) b ;; lines [.jmp l, .lab (.short i)]) := by
  have n1 : ∀ i, ∀ l ∈ ([.short i] : List Label), lnum l = some i := by intro i l hl; simp at hl; subst hl; rfl
  refine fresh_with (S := fun i => [] ++ ([] ++ [.short i])) (fun i => ?_) (fun i => n1 i)
  refine freshP_seq ((hX _ _).p i) (freshP_seq ((hX _ _).p i) ?_ (by simp) (n1 i) (by simp)) (by simp) (n1 i) (by simp)
  exact freshP_lines i [.jmp l, .lab (.short i)] (by show [Label.short i].Nodup; simp)

theorem fresh_condPlain {recE : Node → G} (hE : ∀ n, Fresh (recE n)) (j : Bool) (l : Label) (n : Node) : Fresh (condPlain recE j l n) :=
  fresh_seq (hE _) (fresh_lines _ rfl)

theorem fresh_condOn {recE : Node → G} {recC : Bool → Label → Node → G} (hE : ∀ n, Fresh (recE n)) (hC : ∀ j l n, Fresh (recC j l n)) (j : Bool) (l : Label) (n : Node) :
    Fresh (condOn hs opt loc stk recE recC j l n) := by
  unfold condOn
  split
  · refine fresh_lines _ ?_
    split <;> split <;> rfl
  · split
    · split
      · rename_i hc
        exact fresh_seq (fresh_cmpOpt hs loc hE _ _ _ _ _ hc) (fresh_lines _ rfl)
      · exact fresh_seq (fresh_binary stk hE _ _ _) (fresh_lines _ rfl)
    · split
      · exact fresh_seq (hC _ _ _) (hC _ _ _)
      · exact fresh_over (X := recC false) (l := l) (hC false)
    · split
      · exact fresh_seq (hC _ _ _) (hC _ _ _)
      · exact fresh_over (X := recC true) (l := l) (hC true)
    · split
      · exact hC _ _ _
      · exact fresh_condPlain hE _ _ _
    · exact fresh_condPlain hE _ _ _

theorem fresh_condCode {recE : Node → G} {recC : Bool → Label → Node → G} (hE : ∀ n, Fresh (recE n)) (hC : ∀ j l n, Fresh (recC j l n)) (j : Bool) (l : Label) (n : Node) :
    Fresh (condCode hs opt loc stk recE recC j l n) := by
  unfold condCode
  repeat' split
  · exact fresh_condOn hs opt loc stk hE hC _ _ _
  · exact fresh_condOn hs opt loc stk hE hC _ _ _
  · exact fresh_condPlain hE _ _ _

theorem fresh_voidCode {recE recV : Node → G} (hE : ∀ n, Fresh (recE n)) (hV : ∀ n, Fresh (recV n)) (n : Node) : Fresh (voidCode hs opt loc recE recV n) := by
  have va : ∀ k t x r, Fresh (voidArith hs opt loc recE k t x r) := by
    intro k t x r
    unfold voidArith
    dsimp only
    repeat' split
    all_goals first | exact hE _ | exact fresh_inss _ | exact fresh_seq (hE _) (fresh_inss _)
  have vs : ∀ t x r, Fresh (voidAssign hs loc recE t x r) := by
    intro t x r
    unfold voidAssign
    repeat' split
    all_goals first | exact hE _ | exact fresh_inss _
  cases n with
  | assign t x r => exact vs _ _ _
  | arithAssign k t x r => exact va _ _ _ _
  | postIncDec t x r => exact va _ _ _ _
  | _ => first | exact hE _ | exact hV _ | exact fresh_seq (hV _) (hV _) | exact fresh_lines _ rfl

theorem gen_fresh : ∀ (f : Nat) (m : Mode) (n : Node), Fresh (gen hs opt loc stk f m n) := by
  intro f
  induction f with
  | zero => exact fun m n => fresh_lines _ rfl
  | succ f ih =>
    intro m n
    cases m with
    | expr =>
      simp only [gen]
      split
      · rename_i g hg
        split at hg
        · exact fresh_exprOpt hs opt loc (ih .expr) (fun j l => ih (.cond j l)) n g hg
        · cases hg
      · exact fresh_exprPlain hs opt loc stk (ih .expr) (ih .void) (fun j l => ih (.cond j l)) n
    | void => exact fresh_voidCode hs opt loc (ih .expr) (ih .void) n
    | cond j l => exact fresh_condCode hs opt loc stk (ih .expr) (fun j l => ih (.cond j l)) j l n

end

theorem unique_of_nodup (P : List Line) (h : (labs P).Nodup) : UniqueLabels P := by
  induction P with
  | nil => intro i j l hi; simp at hi
  | cons x P ih =>
    have hP : (labs P).Nodup := by
      cases x with
      | lab l => exact (List.nodup_cons.1 h).2
      | _ => exact h
    have hmem : ∀ (i : Nat) (l : Label), P[i]? = some (Line.lab l) → l ∈ labs P := by
      intro i l hi
      exact List.mem_filterMap.2 ⟨Line.lab l, List.mem_of_getElem? hi, rfl⟩
    intro i j l hi hj
    have no : ∀ (k : Nat), x = Line.lab l → P[k]? = some (Line.lab l) → False := by
      rintro k rfl hk
      exact (List.nodup_cons.1 h).1 (hmem k l hk)
    cases i with
    | zero =>
      cases j with
      | zero => rfl
      | succ j => exact (no j (by simpa using hi) (by simpa using hj)).elim
    | succ i =>
      cases j with
      | zero => exact (no i (by simpa using hj) (by simpa using hi)).elim
      | succ j => rw [ih hP i j l (by simpa using hi) (by simpa using hj)]

theorem gen_unique (hs : HostShift) (opt : Bool) (loc : Nat → MemOp) (stk f : Nat) (m : Mode) (n : Node) (c : Nat) : UniqueLabels (gen hs opt loc stk f m n c).1.code :=
  unique_of_nodup _ (gen_fresh hs opt loc stk f m n c).2.1

end Slimcc
