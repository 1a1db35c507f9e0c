import Verif.Lemmas.FpLoop
import Verif.Props.C83
/-! C84: loops on conditions with floating operands. -/
set_option autoImplicit false
namespace Slimcc.Props
open Slimcc.Spec Slimcc.Spec.CTy Slimcc.Spec.FP Slimcc.X86 Slimcc.Ty Slimcc.Gen Slimcc.FP

/-- The conditions of C82 and C83 for each assignment and condition that is reached, in the values it meets, in each round of a
loop. -/
def LRunnable (E : FEnv) : LStm → (Nat → Val) → Prop
  | .skip, _ => True
  | .brk, _ => True
  | .cont, _ => True
  | .assign x e, σ => Runnable E (.assign x e) σ
  | .seq a b, σ => LRunnable E a σ ∧ ∀ σ', LExec E σ a .normal σ' → LRunnable E b σ'
  | .ifThen c a, σ => CondsOk E σ c ∧ (Truth E.Γ σ c true → LRunnable E a σ)
  | .ifElse c a b, σ => CondsOk E σ c ∧ (Truth E.Γ σ c true → LRunnable E a σ) ∧ (Truth E.Γ σ c false → LRunnable E b σ)
  | .loop c a i, σ => ∀ σ1, Relation.ReflTransGen (Round E c a i) σ σ1 →
      CondsOk E σ1 c ∧ (Truth E.Γ σ1 c true → LRunnable E a σ1 ∧ ∀ m o, o ≠ LEnd.brk → LExec E σ1 a o m → LRunnable E i m)
  | .ever a i, σ => ∀ σ1, Relation.ReflTransGen (EverRound E a i) σ σ1 → LRunnable E a σ1 ∧ ∀ m o, o ≠ LEnd.brk → LExec E σ1 a o m → LRunnable E i m
  | .doWhile a c, σ => ∀ σ1, Relation.ReflTransGen (Again E a c) σ σ1 → LRunnable E a σ1 ∧ ∀ m o, o ≠ LEnd.brk → LExec E σ1 a o m → CondsOk E m c

/-- Each expression and condition that is reached has a value. -/
def LDefined (E : FEnv) : LStm → (Nat → Val) → Prop
  | .skip, _ => True
  | .brk, _ => True
  | .cont, _ => True
  | .assign _ e, σ => ∃ v, Eval E.Γ σ e v
  | .seq a b, σ => LDefined E a σ ∧ ∀ σ', LExec E σ a .normal σ' → LDefined E b σ'
  | .ifThen c a, σ => (∃ v, Truth E.Γ σ c v) ∧ (Truth E.Γ σ c true → LDefined E a σ)
  | .ifElse c a b, σ => (∃ v, Truth E.Γ σ c v) ∧ (Truth E.Γ σ c true → LDefined E a σ) ∧ (Truth E.Γ σ c false → LDefined E b σ)
  | .loop c a i, σ => ∀ σ1, Relation.ReflTransGen (Round E c a i) σ σ1 →
      (∃ v, Truth E.Γ σ1 c v) ∧ (Truth E.Γ σ1 c true → LDefined E a σ1 ∧ ∀ m o, o ≠ LEnd.brk → LExec E σ1 a o m → LDefined E i m)
  | .ever a i, σ => ∀ σ1, Relation.ReflTransGen (EverRound E a i) σ σ1 → LDefined E a σ1 ∧ ∀ m o, o ≠ LEnd.brk → LExec E σ1 a o m → LDefined E i m
  | .doWhile a c, σ => ∀ σ1, Relation.ReflTransGen (Again E a c) σ σ1 → LDefined E a σ1 ∧ ∀ m o, o ≠ LEnd.brk → LExec E σ1 a o m → ∃ v, Truth E.Γ m c v

theorem shift1 {α : Type} {l P R : List α} {x : α} (h : l = P ++ x :: R) : l = (P ++ [x]) ++ R := by rw [h, List.append_assoc, List.singleton_append]
theorem shiftL {α : Type} {l P Q R : List α} (h : l = P ++ (Q ++ R)) : l = (P ++ Q) ++ R := by rw [h, List.append_assoc]

section
variable {E : FEnv} {prog : List FLine}

theorem cond_steps (hE : E.Ok) (hn : (namedLabels prog).Nodup) {σ : Nat → Val} {t : FC} {v : Bool} (jc : Bool) (lab c : Nat) (pre post : List FLine) {s : FS} (h : CondsOk E σ t)
    (ht : Truth E.Γ σ t v) (hs : Within E σ 1 s) (h1 : 3 ≤ lab) (h2 : lab < 3 * c + 3) (hp : prog = pre ++ ((genC E.Γ E.loc E.stk t jc lab c).1.code ++ post)) :
    ∃ s', Within E σ 1 s' ∧ Steps E.sym prog ((genC E.Γ E.loc E.stk t jc lab c).1.code ++ post, none, s) (land prog post (if v = jc then some lab else none) s') := by
  obtain ⟨s', w, r⟩ := C83_logical E hE σ 1 (by omega) t v jc lab c s h ht hs h1 h2
  exact ⟨s', w, seg_steps hn post _ pre none s _ s' hp (seg_of_rests r)⟩

/-- Where execution goes on after a statement. -/
def goesOn (prog post : List FLine) (kb kc : Nat) : LEnd → FS → Conf
  | .normal, s => (post, none, s)
  | .brk, s => land prog post (some kb) s
  | .cont, s => land prog post (some kc) s

theorem goesOn_rest {p : List FLine} (q : List FLine) {kb kc : Nat} {o : LEnd} (h : o ≠ .normal) (h1 : 3 ≤ kb) (h2 : 3 ≤ kc) (s : FS) : goesOn prog p kb kc o s = goesOn prog q kb kc o s := by
  cases o with
  | normal => exact absurd rfl h
  | brk => show jumpTo prog p kb s = jumpTo prog q kb s; unfold jumpTo; rw [if_neg (by omega), if_neg (by omega)]
  | cont => show jumpTo prog p kc s = jumpTo prog q kc s; unfold jumpTo; rw [if_neg (by omega), if_neg (by omega)]

theorem goesOn_then {sym : Nat → Word} {p q : List FLine} {kb kc : Nat} {o : LEnd} {x : Conf} {s : FS} (h1 : 3 ≤ kb) (h2 : 3 ≤ kc) (h : Steps sym prog x (goesOn prog p kb kc o s))
    (hq : Steps sym prog (p, none, s) (q, none, s)) : Steps sym prog x (goesOn prog q kb kc o s) := by
  cases o with
  | normal => exact h.trans hq
  | brk => rwa [goesOn_rest q (by decide) h1 h2] at h
  | cont => rwa [goesOn_rest q (by decide) h1 h2] at h

/-- After the body of a loop, but for `break`. -/
theorem goesOn_round {sym : Nat → Word} (hn : (namedLabels prog).Nodup) {pre r : List FLine} {kb kc : Nat} {o : LEnd} {x : Conf} {s : FS} (ho : o ≠ .brk) (h2 : 3 ≤ kc)
    (hp : prog = pre ++ .lab kc :: r) (h : Steps sym prog x (goesOn prog (.lab kc :: r) kb kc o s)) : Steps sym prog x (.lab kc :: r, none, s) := by
  cases o with
  | normal => exact h
  | brk => exact absurd rfl ho
  | cont => exact h.trans (found hn h2 hp _ s)

theorem loops_run (hE : E.Ok) (hn : (namedLabels prog).Nodup) {σ σ' : Nat → Val} {t : LStm} {o : LEnd} (he : LExec E σ t o σ') : ∀ (kb kc c : Nat) (s : FS) (pre post : List FLine),
    3 ≤ kb → 3 ≤ kc → prog = pre ++ ((genL E.Γ E.loc E.stk t kb kc c).1 ++ post) → LRunnable E t σ → Within E σ 1 s →
    ∃ s', Within E σ' 1 s' ∧ Steps E.sym prog ((genL E.Γ E.loc E.stk t kb kc c).1 ++ post, none, s) (goesOn prog post kb kc o s') := by
  induction he with
  | skip σ => exact fun kb kc c s pre post _ _ _ _ hs => ⟨s, hs, .refl⟩
  | brk σ => exact fun kb kc c s pre post _ _ _ _ hs => ⟨s, hs, .one rfl⟩
  | cont σ => exact fun kb kc c s pre post _ _ _ _ hs => ⟨s, hs, .one rfl⟩
  | assign hv =>
    intro kb kc c s pre post _ _ hp hr hs
    obtain ⟨h1, h2, h3, h4, h5, h6, h7, h8⟩ := hr
    obtain ⟨s', r1, w1, _⟩ := C82_statement E hE _ _ _ _ 1 s h1 h2 hv h3 ⟨h4, h5⟩ h7 h6 hs (by omega) h8
    exact ⟨s', w1, seg_steps hn post _ pre none s none s' hp (seg_of_run r1)⟩
  | @seq σ σ1 σ2 a b o ea _ iha ihb =>
    intro kb kc c s pre post hb hc hp hr hs
    simp only [genL, List.append_assoc] at hp ⊢
    obtain ⟨s1, w1, r1⟩ := iha kb kc c s pre _ hb hc hp hr.1 hs
    obtain ⟨s2, w2, r2⟩ := ihb kb kc _ s1 _ post hb hc (shiftL hp) (hr.2 _ ea) w1
    exact ⟨s2, w2, r1.trans r2⟩
  | @seqX σ σ1 a b o ea ho iha =>
    intro kb kc c s pre post hb hc hp hr hs
    simp only [genL, List.append_assoc] at hp ⊢
    obtain ⟨s1, w1, r1⟩ := iha kb kc c s pre _ hb hc hp hr.1 hs
    exact ⟨s1, w1, goesOn_rest post ho hb hc s1 ▸ r1⟩
  | @thenT σ σ' t a o hz _ ih =>
    intro kb kc c s pre post hb hc hp hr hs
    simp only [genL, List.append_assoc, List.cons_append, List.nil_append] at hp ⊢
    obtain ⟨s1, w1, r1⟩ := cond_steps hE hn false (3 * c + 3) (c + 1) pre _ hr.1 hz hs (by omega) (by omega) hp
    obtain ⟨s2, w2, r2⟩ := ih kb kc _ s1 _ _ hb hc (shiftL hp) (hr.2 hz) w1
    exact ⟨s2, w2, goesOn_then hb hc (r1.trans r2) (.one rfl)⟩
  | @thenF σ t a hz =>
    intro kb kc c s pre post hb hc hp hr hs
    simp only [genL, List.append_assoc, List.cons_append, List.nil_append] at hp ⊢
    obtain ⟨s1, w1, r1⟩ := cond_steps hE hn false (3 * c + 3) (c + 1) pre _ hr.1 hz hs (by omega) (by omega) hp
    refine ⟨s1, w1, (r1.trans ?_).trans (.one (a := (.lab (3 * c + 3) :: post, none, s1)) rfl)⟩
    exact found hn (by omega) (shiftL (shiftL hp)) _ s1
  | @elseT σ σ' t a b o hz _ ih =>
    intro kb kc c s pre post hb hc hp hr hs
    simp only [genL, List.append_assoc, List.cons_append, List.nil_append] at hp ⊢
    obtain ⟨s1, w1, r1⟩ := cond_steps hE hn false (3 * c + 3) (c + 1) pre _ hr.1 hz hs (by omega) (by omega) hp
    obtain ⟨s2, w2, r2⟩ := ih kb kc _ s1 _ _ hb hc (shiftL hp) (hr.2.1 hz) w1
    refine ⟨s2, w2, goesOn_then hb hc (r1.trans r2) ((Steps.one rfl).trans (Steps.trans ?_ (.one (a := (.lab (3 * c + 4) :: post, none, s2)) rfl)))⟩
    exact found hn (by omega) (shiftL (shift1 (shift1 (shiftL (shiftL hp))))) _ s2
  | @elseF σ σ' t a b o hz _ ih =>
    intro kb kc c s pre post hb hc hp hr hs
    simp only [genL, List.append_assoc, List.cons_append, List.nil_append] at hp ⊢
    obtain ⟨s1, w1, r1⟩ := cond_steps hE hn false (3 * c + 3) (c + 1) pre _ hr.1 hz hs (by omega) (by omega) hp
    have hp2 := shift1 (shiftL (shiftL hp))
    obtain ⟨s2, w2, r2⟩ := ih kb kc _ s1 _ (.lab (3 * c + 4) :: post) hb hc (shift1 hp2) (hr.2.2 hz) w1
    exact ⟨s2, w2, goesOn_then hb hc ((r1.trans (found hn (by omega) hp2 _ s1)).trans ((Steps.one rfl).trans r2)) (.one rfl)⟩
  | @loopF σ t a i hz =>
    intro kb kc c s pre post hb hc hp hr hs
    simp only [genL, List.append_assoc, List.cons_append, List.nil_append] at hp ⊢
    obtain ⟨s1, w1, r1⟩ := cond_steps hE hn false (3 * c + 4) (c + 1) (pre ++ [.lab (3 * c + 3)]) _ (hr σ .refl).1 hz hs (by omega) (by omega) (shift1 hp)
    refine ⟨s1, w1, (Steps.one rfl).trans ((r1.trans ?_).trans (.one (a := (.lab (3 * c + 4) :: post, none, s1)) rfl))⟩
    exact found hn (by omega) (shift1 (shiftL (shift1 (shiftL (shiftL (shift1 hp)))))) _ s1
  | @loopB σ σ1 t a i hz ea iha =>
    intro kb kc c s pre post hb hc hp hr hs
    obtain ⟨hq, hw⟩ := hr σ .refl
    simp only [genL, List.append_assoc, List.cons_append, List.nil_append] at hp ⊢
    have hp1 := shift1 hp
    obtain ⟨s1, w1, r1⟩ := cond_steps hE hn false (3 * c + 4) (c + 1) _ _ hq hz hs (by omega) (by omega) hp1
    have hp2 := shiftL hp1
    obtain ⟨s2, w2, r2⟩ := iha (3 * c + 4) (3 * c + 5) _ s1 _ _ (by omega) (by omega) hp2 (hw hz).1 w1
    refine ⟨s2, w2, (Steps.one rfl).trans (r1.trans (r2.trans (Steps.trans ?_ (.one (a := (.lab (3 * c + 4) :: post, none, s2)) rfl))))⟩
    exact found hn (by omega) (shift1 (shiftL (shift1 (shiftL hp2)))) _ s2
  | @loopT σ σ1 σ2 σ' t a i o hz ea ho ei _ iha ihi ihl =>
    intro kb kc c s pre post hb hc hp hr hs
    obtain ⟨hq, hw⟩ := hr σ .refl
    have hr' : LRunnable E (.loop t a i) σ2 := fun x hx => hr x (.head ⟨hz, σ1, o, ho, ea, ei⟩ hx)
    have hl := fun s => ihl kb kc c s pre post hb hc hp hr'
    simp only [genL, List.append_assoc, List.cons_append, List.nil_append] at hp hl ⊢
    have hp1 := shift1 hp
    obtain ⟨s1, w1, r1⟩ := cond_steps hE hn false (3 * c + 4) (c + 1) _ _ hq hz hs (by omega) (by omega) hp1
    have hp2 := shiftL hp1
    obtain ⟨s2, w2, r2⟩ := iha (3 * c + 4) (3 * c + 5) _ s1 _ _ (by omega) (by omega) hp2 (hw hz).1 w1
    have hp3 := shiftL hp2
    have r2' := goesOn_round hn ho (by omega) hp3 r2
    obtain ⟨s3, w3, r3⟩ := ihi kb kc _ s2 _ (.jmp (3 * c + 3) :: .lab (3 * c + 4) :: post) hb hc (shift1 hp3) ((hw hz).2 _ _ ho ea) w2
    obtain ⟨s4, w4, r4⟩ := hl s3 w3
    exact ⟨s4, w4, (Steps.one rfl).trans (r1.trans (r2'.trans ((Steps.one rfl).trans (r3.trans ((Steps.one rfl).trans ((found hn (by omega) hp _ s3).trans r4))))))⟩
  | @everB σ σ1 a i ea iha =>
    intro kb kc c s pre post hb hc hp hr hs
    obtain ⟨hw, _⟩ := hr σ .refl
    simp only [genL, List.append_assoc, List.cons_append, List.nil_append] at hp ⊢
    have hp1 := shift1 hp
    obtain ⟨s2, w2, r2⟩ := iha (3 * c + 4) (3 * c + 5) _ s _ _ (by omega) (by omega) hp1 hw hs
    refine ⟨s2, w2, (Steps.one rfl).trans (r2.trans (Steps.trans ?_ (.one (a := (.lab (3 * c + 4) :: post, none, s2)) rfl)))⟩
    exact found hn (by omega) (shift1 (shiftL (shift1 (shiftL hp1)))) _ s2
  | @everT σ σ1 σ2 σ' a i o ea ho ei _ iha ihi ihl =>
    intro kb kc c s pre post hb hc hp hr hs
    obtain ⟨hw, hv⟩ := hr σ .refl
    have hr' : LRunnable E (.ever a i) σ2 := fun x hx => hr x (.head ⟨σ1, o, ho, ea, ei⟩ hx)
    have hl := fun s => ihl kb kc c s pre post hb hc hp hr'
    simp only [genL, List.append_assoc, List.cons_append, List.nil_append] at hp hl ⊢
    have hp1 := shift1 hp
    obtain ⟨s2, w2, r2⟩ := iha (3 * c + 4) (3 * c + 5) _ s _ _ (by omega) (by omega) hp1 hw hs
    have hp3 := shiftL hp1
    have r2' := goesOn_round hn ho (by omega) hp3 r2
    obtain ⟨s3, w3, r3⟩ := ihi kb kc _ s2 _ (.jmp (3 * c + 3) :: .lab (3 * c + 4) :: post) hb hc (shift1 hp3) (hv _ _ ho ea) w2
    obtain ⟨s4, w4, r4⟩ := hl s3 w3
    exact ⟨s4, w4, (Steps.one rfl).trans (r2'.trans ((Steps.one rfl).trans (r3.trans ((Steps.one rfl).trans ((found hn (by omega) hp _ s3).trans r4)))))⟩
  | @doB σ σ1 t a ea ih =>
    intro kb kc c s pre post hb hc hp hr hs
    obtain ⟨hw, _⟩ := hr σ .refl
    simp only [genL, List.append_assoc, List.cons_append, List.nil_append] at hp ⊢
    have hp1 := shift1 hp
    obtain ⟨s1, w1, r1⟩ := ih (3 * c + 4) (3 * c + 5) (c + 1) s _ _ (by omega) (by omega) hp1 hw hs
    refine ⟨s1, w1, (Steps.one rfl).trans (r1.trans (Steps.trans ?_ (.one (a := (.lab (3 * c + 4) :: post, none, s1)) rfl)))⟩
    exact found hn (by omega) (shiftL (shift1 (shiftL hp1))) _ s1
  | @doF σ σ1 t a o ea ho hz ih =>
    intro kb kc c s pre post hb hc hp hr hs
    obtain ⟨hw, hq⟩ := hr σ .refl
    simp only [genL, List.append_assoc, List.cons_append, List.nil_append] at hp ⊢
    have hp1 := shift1 hp
    obtain ⟨s1, w1, r1⟩ := ih (3 * c + 4) (3 * c + 5) (c + 1) s _ _ (by omega) (by omega) hp1 hw hs
    have hp2 := shiftL hp1
    have r1' := goesOn_round hn ho (by omega) hp2 r1
    have ht := (genL_tidy E.Γ E.loc E.stk a (3 * c + 4) (3 * c + 5) (c + 1)).le
    obtain ⟨s2, w2, r2⟩ := cond_steps hE hn true (3 * c + 3) (genL E.Γ E.loc E.stk a (3 * c + 4) (3 * c + 5) (c + 1)).2 _ (.lab (3 * c + 4) :: post) (hq _ _ ho ea) hz w1 (by omega) (by omega) (shift1 hp2)
    exact ⟨s2, w2, (Steps.one rfl).trans (r1'.trans ((Steps.one rfl).trans (r2.trans (.one rfl))))⟩
  | @doT σ σ1 σ' t a o ea ho hz _ ih ihl =>
    intro kb kc c s pre post hb hc hp hr hs
    obtain ⟨hw, hq⟩ := hr σ .refl
    have hr' : LRunnable E (.doWhile a t) σ1 := fun x hx => hr x (.head ⟨o, ho, ea, hz⟩ hx)
    have hl := fun s => ihl kb kc c s pre post hb hc hp hr'
    simp only [genL, List.append_assoc, List.cons_append, List.nil_append] at hp hl ⊢
    have hp1 := shift1 hp
    obtain ⟨s1, w1, r1⟩ := ih (3 * c + 4) (3 * c + 5) (c + 1) s _ _ (by omega) (by omega) hp1 hw hs
    have hp2 := shiftL hp1
    have r1' := goesOn_round hn ho (by omega) hp2 r1
    have ht := (genL_tidy E.Γ E.loc E.stk a (3 * c + 4) (3 * c + 5) (c + 1)).le
    obtain ⟨s2, w2, r2⟩ := cond_steps hE hn true (3 * c + 3) (genL E.Γ E.loc E.stk a (3 * c + 4) (3 * c + 5) (c + 1)).2 _ (.lab (3 * c + 4) :: post) (hq _ _ ho ea) hz w1 (by omega) (by omega) (shift1 hp2)
    obtain ⟨s3, w3, r3⟩ := hl s2 w2
    exact ⟨s3, w3, (Steps.one rfl).trans (r1'.trans ((Steps.one rfl).trans (r2.trans ((found hn (by omega) hp _ s2).trans r3))))⟩

/-- Without `break` and `continue` outside loops, execution ends at the end. -/
theorem placed_normal {σ σ' : Nat → Val} {t : LStm} {o : LEnd} (he : LExec E σ t o σ') : t.Placed false → o = .normal := by
  induction he with
  | seq _ _ _ ih => exact fun h => ih h.2
  | seqX _ ho ih => exact fun h => ih h.1
  | thenT _ _ ih => exact fun h => ih h
  | elseT _ _ ih => exact fun h => ih h.1
  | elseF _ _ ih => exact fun h => ih h.2
  | brk _ => exact fun h => by cases h
  | cont _ => exact fun h => by cases h
  | _ => exact fun _ => rfl

/-- Execution of a statement ends, or its code goes on for ever. -/
theorem loops_end (hE : E.Ok) (hn : (namedLabels prog).Nodup) (t : LStm) : ∀ (l : Bool) (σ : Nat → Val) (kb kc c : Nat) (s : FS) (pre post : List FLine), t.Placed l →
    3 ≤ kb → 3 ≤ kc → prog = pre ++ ((genL E.Γ E.loc E.stk t kb kc c).1 ++ post) → LRunnable E t σ → LDefined E t σ → Within E σ 1 s →
    (∃ o σ', LExec E σ t o σ') ∨ ∀ n, Can E.sym prog n ((genL E.Γ E.loc E.stk t kb kc c).1 ++ post, none, s) := by
  induction t with
  | skip => exact fun l σ kb kc c s pre post _ _ _ _ _ _ _ => .inl ⟨_, _, .skip σ⟩
  | brk => exact fun l σ kb kc c s pre post _ _ _ _ _ _ _ => .inl ⟨_, _, .brk σ⟩
  | cont => exact fun l σ kb kc c s pre post _ _ _ _ _ _ _ => .inl ⟨_, _, .cont σ⟩
  | assign x e => exact fun l σ kb kc c s pre post _ _ _ _ _ hd _ => .inl (hd.elim fun v hv => ⟨_, _, .assign hv⟩)
  | seq a b iha ihb =>
    intro l σ kb kc c s pre post hl hb hc hp hr hd hs
    simp only [genL, List.append_assoc] at hp ⊢
    rcases iha l σ kb kc c s pre _ hl.1 hb hc hp hr.1 hd.1 hs with ⟨o, σ1, ea⟩ | h
    · by_cases ho : o = .normal
      · subst ho
        obtain ⟨s1, w1, r1⟩ := loops_run hE hn ea kb kc c s pre _ hb hc hp hr.1 hs
        rcases ihb l σ1 kb kc _ s1 _ post hl.2 hb hc (shiftL hp) (hr.2 _ ea) (hd.2 _ ea) w1 with ⟨o, σ2, eb⟩ | h
        · exact .inl ⟨o, σ2, .seq ea eb⟩
        · exact .inr fun n => can_steps r1 (h n)
      · exact .inl ⟨o, σ1, .seqX ea ho⟩
    · exact .inr h
  | ifThen t a ih =>
    intro l σ kb kc c s pre post hl hb hc hp hr hd hs
    simp only [genL, List.append_assoc, List.cons_append, List.nil_append] at hp ⊢
    obtain ⟨v, hv⟩ := hd.1
    cases v with
    | false => exact .inl ⟨_, _, .thenF hv⟩
    | true =>
      obtain ⟨s1, w1, r1⟩ := cond_steps hE hn false (3 * c + 3) (c + 1) pre _ hr.1 hv hs (by omega) (by omega) hp
      rcases ih l σ kb kc _ s1 _ _ hl hb hc (shiftL hp) (hr.2 hv) (hd.2 hv) w1 with ⟨o, σ1, ea⟩ | h
      · exact .inl ⟨o, σ1, .thenT hv ea⟩
      · exact .inr fun n => can_steps r1 (h n)
  | ifElse t a b iha ihb =>
    intro l σ kb kc c s pre post hl hb hc hp hr hd hs
    simp only [genL, List.append_assoc, List.cons_append, List.nil_append] at hp ⊢
    obtain ⟨v, hv⟩ := hd.1
    obtain ⟨s1, w1, r1⟩ := cond_steps hE hn false (3 * c + 3) (c + 1) pre _ hr.1 hv hs (by omega) (by omega) hp
    cases v with
    | false =>
      have hp2 := shift1 (shiftL (shiftL hp))
      rcases ihb l σ kb kc _ s1 _ (.lab (3 * c + 4) :: post) hl.2 hb hc (shift1 hp2) (hr.2.2 hv) (hd.2.2 hv) w1 with ⟨o, σ1, ea⟩ | h
      · exact .inl ⟨o, σ1, .elseF hv ea⟩
      · exact .inr fun n => can_steps ((r1.trans (found hn (by omega) hp2 _ s1)).trans (.one rfl)) (h n)
    | true =>
      rcases iha l σ kb kc _ s1 _ _ hl.1 hb hc (shiftL hp) (hr.2.1 hv) (hd.2.1 hv) w1 with ⟨o, σ1, ea⟩ | h
      · exact .inl ⟨o, σ1, .elseT hv ea⟩
      · exact .inr fun n => can_steps r1 (h n)
  | loop t a i iha ihi =>
    intro l σ kb kc c s pre post hl hb hc hp hr hd hs
    by_cases hX : ∃ σ', LExec E σ (.loop t a i) .normal σ'
    · exact .inl (hX.elim fun σ' h => ⟨_, σ', h⟩)
    refine .inr fun n => ?_
    simp only [genL, List.append_assoc, List.cons_append, List.nil_append] at hp ⊢
    induction n generalizing σ s with
    | zero => exact trivial
    | succ n ihn =>
      obtain ⟨hq, hw⟩ := hr σ .refl
      obtain ⟨⟨v, hv⟩, hdw⟩ := hd σ .refl
      cases v with
      | false => exact absurd ⟨σ, .loopF hv⟩ hX
      | true =>
        refine ⟨_, rfl, ?_⟩
        have hp1 := shift1 hp
        obtain ⟨s1, w1, r1⟩ := cond_steps hE hn false (3 * c + 4) (c + 1) _ _ hq hv hs (by omega) (by omega) hp1
        refine can_steps r1 ?_
        have hp2 := shiftL hp1
        rcases iha true σ (3 * c + 4) (3 * c + 5) _ s1 _ _ hl.1 (by omega) (by omega) hp2 (hw hv).1 (hdw hv).1 w1 with ⟨o, σ1, ea⟩ | h
        · by_cases ho : o = .brk
          · subst ho; exact absurd ⟨σ1, .loopB hv ea⟩ hX
          obtain ⟨s2, w2, r2⟩ := loops_run hE hn ea (3 * c + 4) (3 * c + 5) _ s1 _ _ (by omega) (by omega) hp2 (hw hv).1 w1
          have hp3 := shiftL hp2
          refine can_steps ((goesOn_round hn ho (by omega) hp3 r2).trans (.one rfl)) ?_
          rcases ihi false σ1 kb kc _ s2 _ (.jmp (3 * c + 3) :: .lab (3 * c + 4) :: post) hl.2 hb hc (shift1 hp3) ((hw hv).2 _ _ ho ea) ((hdw hv).2 _ _ ho ea) w2 with ⟨o', σ2, ei⟩ | h
          · obtain rfl := placed_normal ei hl.2
            obtain ⟨s3, w3, r3⟩ := loops_run hE hn ei kb kc _ s2 _ (.jmp (3 * c + 3) :: .lab (3 * c + 4) :: post) hb hc (shift1 hp3) ((hw hv).2 _ _ ho ea) w2
            refine can_steps (r3.trans ((Steps.one rfl).trans (found hn (by omega) hp _ s3))) ?_
            exact ihn σ2 s3 (fun x hx => hr x (.head ⟨hv, σ1, o, ho, ea, ei⟩ hx)) (fun x hx => hd x (.head ⟨hv, σ1, o, ho, ea, ei⟩ hx)) w3
              (fun ⟨σ', h⟩ => hX ⟨σ', .loopT hv ea ho ei h⟩)
          · exact h n
        · exact h n
  | ever a i iha ihi =>
    intro l σ kb kc c s pre post hl hb hc hp hr hd hs
    by_cases hX : ∃ σ', LExec E σ (.ever a i) .normal σ'
    · exact .inl (hX.elim fun σ' h => ⟨_, σ', h⟩)
    refine .inr fun n => ?_
    simp only [genL, List.append_assoc, List.cons_append, List.nil_append] at hp ⊢
    induction n generalizing σ s with
    | zero => exact trivial
    | succ n ihn =>
      obtain ⟨hw, hw'⟩ := hr σ .refl
      obtain ⟨hdw, hdw'⟩ := hd σ .refl
      refine ⟨_, rfl, ?_⟩
      have hp2 := shift1 hp
      rcases iha true σ (3 * c + 4) (3 * c + 5) _ s _ _ hl.1 (by omega) (by omega) hp2 hw hdw hs with ⟨o, σ1, ea⟩ | h
      · by_cases ho : o = .brk
        · subst ho; exact absurd ⟨σ1, .everB ea⟩ hX
        obtain ⟨s2, w2, r2⟩ := loops_run hE hn ea (3 * c + 4) (3 * c + 5) _ s _ _ (by omega) (by omega) hp2 hw hs
        have hp3 := shiftL hp2
        refine can_steps ((goesOn_round hn ho (by omega) hp3 r2).trans (.one rfl)) ?_
        rcases ihi false σ1 kb kc _ s2 _ (.jmp (3 * c + 3) :: .lab (3 * c + 4) :: post) hl.2 hb hc (shift1 hp3) (hw' _ _ ho ea) (hdw' _ _ ho ea) w2 with ⟨o', σ2, ei⟩ | h
        · obtain rfl := placed_normal ei hl.2
          obtain ⟨s3, w3, r3⟩ := loops_run hE hn ei kb kc _ s2 _ (.jmp (3 * c + 3) :: .lab (3 * c + 4) :: post) hb hc (shift1 hp3) (hw' _ _ ho ea) w2
          refine can_steps (r3.trans ((Steps.one rfl).trans (found hn (by omega) hp _ s3))) ?_
          exact ihn σ2 s3 (fun x hx => hr x (.head ⟨σ1, o, ho, ea, ei⟩ hx)) (fun x hx => hd x (.head ⟨σ1, o, ho, ea, ei⟩ hx)) w3
            (fun ⟨σ', h⟩ => hX ⟨σ', .everT ea ho ei h⟩)
        · exact h n
      · exact h n
  | doWhile a t ih =>
    intro l σ kb kc c s pre post hl hb hc hp hr hd hs
    by_cases hX : ∃ σ', LExec E σ (.doWhile a t) .normal σ'
    · exact .inl (hX.elim fun σ' h => ⟨_, σ', h⟩)
    refine .inr fun n => ?_
    simp only [genL, List.append_assoc, List.cons_append, List.nil_append] at hp ⊢
    induction n generalizing σ s with
    | zero => exact trivial
    | succ n ihn =>
      obtain ⟨hw, hq⟩ := hr σ .refl
      obtain ⟨hdw, hdq⟩ := hd σ .refl
      refine ⟨_, rfl, ?_⟩
      have hp1 := shift1 hp
      rcases ih true σ (3 * c + 4) (3 * c + 5) (c + 1) s _ _ hl (by omega) (by omega) hp1 hw hdw hs with ⟨o, σ1, ea⟩ | h
      · by_cases ho : o = .brk
        · subst ho; exact absurd ⟨σ1, .doB ea⟩ hX
        obtain ⟨s1, w1, r1⟩ := loops_run hE hn ea (3 * c + 4) (3 * c + 5) (c + 1) s _ _ (by omega) (by omega) hp1 hw hs
        have hp2 := shiftL hp1
        have ht := (genL_tidy E.Γ E.loc E.stk a (3 * c + 4) (3 * c + 5) (c + 1)).le
        refine can_steps ((goesOn_round hn ho (by omega) hp2 r1).trans (.one rfl)) ?_
        obtain ⟨v, hv⟩ := hdq _ _ ho ea
        cases v with
        | false => exact absurd ⟨σ1, .doF ea ho hv⟩ hX
        | true =>
          obtain ⟨s2, w2, r2⟩ := cond_steps hE hn true (3 * c + 3) (genL E.Γ E.loc E.stk a (3 * c + 4) (3 * c + 5) (c + 1)).2 _ (.lab (3 * c + 4) :: post) (hq _ _ ho ea) hv w1 (by omega) (by omega) (shift1 hp2)
          refine can_steps (r2.trans (found hn (by omega) hp _ s2)) ?_
          exact ihn σ1 s2 (fun x hx => hr x (.head ⟨o, ho, ea, hv⟩ hx)) (fun x hx => hd x (.head ⟨o, ho, ea, hv⟩ hx)) w2
            (fun ⟨σ', h⟩ => hX ⟨σ', .doT ea ho hv h⟩)
      · exact h n

end

/-- The code of a statement with assignments, branches, loops, `break` and `continue`, nested in any way, reaches its end if the
statement's execution ends, and leaves in the variables what C says. `kb` and `kc` are not jumped to (`C84_labels`). -/
theorem C84_loops (E : FEnv) (hE : E.Ok) (t : LStm) (σ σ' : Nat → Val) (kb kc c : Nat) (s : FS) (hb : 3 ≤ kb) (hc : 3 ≤ kc) (hr : LRunnable E t σ)
    (he : LExec E σ t .normal σ') (hs : Within E σ 1 s) :
    ∃ s', Steps E.sym (genL E.Γ E.loc E.stk t kb kc c).1 ((genL E.Γ E.loc E.stk t kb kc c).1, none, s) ([], none, s') ∧ Within E σ' 1 s' := by
  obtain ⟨s', w, r⟩ := loops_run (prog := (genL E.Γ E.loc E.stk t kb kc c).1) hE (genL_tidy E.Γ E.loc E.stk t kb kc c).nodup he kb kc c s [] [] hb hc (by rw [List.append_nil]; rfl) hr hs
  rw [List.append_nil] at r
  exact ⟨s', r, w⟩

/-- That end is the only one the code can reach. -/
theorem C84_only (E : FEnv) (hE : E.Ok) (t : LStm) (σ σ' : Nat → Val) (kb kc c : Nat) (s s1 : FS) (hb : 3 ≤ kb) (hc : 3 ≤ kc) (hr : LRunnable E t σ)
    (he : LExec E σ t .normal σ') (hs : Within E σ 1 s) (u : Option Nat)
    (h : Steps E.sym (genL E.Γ E.loc E.stk t kb kc c).1 ((genL E.Γ E.loc E.stk t kb kc c).1, none, s) ([], u, s1)) : u = none ∧ Within E σ' 1 s1 := by
  obtain ⟨s', r, w⟩ := C84_loops E hE t σ σ' kb kc c s hb hc hr he hs
  obtain ⟨rfl, rfl⟩ := steps_only h r
  exact ⟨rfl, w⟩

/-- The code reaches its end exactly if the execution of the statement ends. -/
theorem C84_ends (E : FEnv) (hE : E.Ok) (t : LStm) (σ : Nat → Val) (kb kc c : Nat) (s : FS) (hb : 3 ≤ kb) (hc : 3 ≤ kc) (hl : t.Placed false) (hr : LRunnable E t σ)
    (hd : LDefined E t σ) (hs : Within E σ 1 s) :
    (∃ u s1, Steps E.sym (genL E.Γ E.loc E.stk t kb kc c).1 ((genL E.Γ E.loc E.stk t kb kc c).1, none, s) ([], u, s1)) ↔ ∃ σ', LExec E σ t .normal σ' := by
  constructor
  · rintro ⟨u, s1, h⟩
    rcases loops_end (prog := (genL E.Γ E.loc E.stk t kb kc c).1) hE (genL_tidy E.Γ E.loc E.stk t kb kc c).nodup t false σ kb kc c s [] [] hl hb hc (by rw [List.append_nil]; rfl) hr hd hs with
      ⟨o, σ', he⟩ | hf
    · obtain rfl := placed_normal he hl
      exact ⟨σ', he⟩
    · rw [List.append_nil] at hf
      exact (can_end h hf).elim
  · rintro ⟨σ', he⟩
    obtain ⟨s', r, _⟩ := C84_loops E hE t σ σ' kb kc c s hb hc hr he hs
    exact ⟨none, s', r⟩

/-- No label with a name is defined twice, and every one that the code jumps to is defined, if `break` and `continue` are inside
loops. -/
theorem C84_labels (Γ : Nat → VTy) (loc : Nat → MemOp) (stk : Nat) (t : LStm) (kb kc c : Nat) (h : t.Placed false) :
    (namedLabels (genL Γ loc stk t kb kc c).1).Nodup ∧ ∀ k ∈ namedJumps (genL Γ loc stk t kb kc c).1, k ∈ namedLabels (genL Γ loc stk t kb kc c).1 :=
  ⟨(genL_tidy Γ loc stk t kb kc c).nodup, fun k hk => (genL_jumps Γ loc stk t false kb kc c h k hk).elim id fun h => absurd h.1 (by decide)⟩

/-! Concrete cases: `while (a < b) a = b;` and `do a = b; while (a < b);` with 1.5 and 2.5. -/

def fxLt : FC := .leaf (.cmp .lt (.var 0) (.var 1))
def fxWhile : LStm := .loop fxLt (.assign 0 (.var 1)) .skip
def fxDo : LStm := .doWhile (.assign 0 (.var 1)) fxLt

theorem fxLt_ok (σ : Nat → Val) : CondsOk fxEnv σ fxLt :=
  ⟨⟨trivial, trivial, .double, rfl, rfl⟩, rfl, ⟨trivial, trivial⟩, ⟨trivial, trivial⟩, ⟨trivial, trivial⟩, fun _ _ => by show (genF true _ _ _ _).st ≤ 4; decide⟩

theorem fxEqual : Truth fxEnv.Γ (fxEnv.set fxStore 0 (.f (.fin false (5 * 2 ^ 50) (-51)))) fxLt false := by
  have h : ¬ FCmp.Holds .lt (.fin false (5 * 2 ^ 50) (-51)) (.fin false (5 * 2 ^ 50) (-51)) := fun h => absurd ((host_cmp .lt _ _).2 h) (by decide +kernel)
  exact .leaf (z := 0) (.cmpF (x := .fin false (5 * 2 ^ 50) (-51)) (y := .fin false (5 * 2 ^ 50) (-51)) (.var 0) (.var 1) h)

example : ∃ s', Steps fxEnv.sym (genL fxEnv.Γ fxEnv.loc fxEnv.stk fxWhile 3 3 7).1 ((genL fxEnv.Γ fxEnv.loc fxEnv.stk fxWhile 3 3 7).1, none, fxState 0x3f 0xf8 0x40 0x04) ([], none, s') ∧
    At (.flo .double) (.f (.fin false (5 * 2 ^ 50) (-51))) 0x7fffffffdff8#64 s'.g.m := by
  have w : Within fxEnv fxStore 1 (fxState 0x3f 0xf8 0x40 0x04) := { fxWithin with st := by decide }
  have h1 : FCmp.Holds .lt (.fin false (3 * 2 ^ 51) (-52)) (.fin false (5 * 2 ^ 50) (-51)) := (host_cmp .lt _ _).1 (by decide +kernel)
  have hc : Truth fxEnv.Γ fxStore fxLt true := .leaf (z := 1) (.cmpT (x := .fin false (3 * 2 ^ 51) (-52)) (y := .fin false (5 * 2 ^ 50) (-51)) (.var 0) (.var 1) h1)
  obtain ⟨s', r, m⟩ := C84_loops fxEnv fxEnv_ok fxWhile fxStore _ 3 3 7 _ (by decide) (by decide) (fun σ _ => ⟨fxLt_ok σ, fun _ => ⟨fxThen σ, fun _ _ _ _ => trivial⟩⟩)
    (.loopT hc (.assign (.var 1)) (by decide) (.skip _) (.loopF fxEqual)) w
  exact ⟨s', r, m.mem 0⟩

example : ∃ s', Steps fxEnv.sym (genL fxEnv.Γ fxEnv.loc fxEnv.stk fxDo 3 3 7).1 ((genL fxEnv.Γ fxEnv.loc fxEnv.stk fxDo 3 3 7).1, none, fxState 0x3f 0xf8 0x40 0x04) ([], none, s') ∧
    At (.flo .double) (.f (.fin false (5 * 2 ^ 50) (-51))) 0x7fffffffdff8#64 s'.g.m := by
  have w : Within fxEnv fxStore 1 (fxState 0x3f 0xf8 0x40 0x04) := { fxWithin with st := by decide }
  obtain ⟨s', r, m⟩ := C84_loops fxEnv fxEnv_ok fxDo fxStore _ 3 3 7 _ (by decide) (by decide) (fun σ _ => ⟨fxThen σ, fun m _ _ _ => fxLt_ok m⟩) (.doF (.assign (.var 1)) (by decide) fxEqual) w
  exact ⟨s', r, m.mem 0⟩

example : namedLabels (genL fxEnv.Γ fxEnv.loc fxEnv.stk (.seq fxWhile fxDo) 3 3 7).1 = [24, 26, 25, 27, 29, 28] ∧
    namedJumps (genL fxEnv.Γ fxEnv.loc fxEnv.stk (.seq fxWhile fxDo) 3 3 7).1 = [25, 24, 27] := by decide

/-- `while (a < b) { if (a < b) break; a = a * b - a / b; }` leaves a as it is. -/
def fxBreak : LStm := .loop fxLt (.seq (.ifThen fxLt .brk) (.assign 0 fxExpr)) .skip

example : ∃ s', Steps fxEnv.sym (genL fxEnv.Γ fxEnv.loc fxEnv.stk fxBreak 3 3 7).1 ((genL fxEnv.Γ fxEnv.loc fxEnv.stk fxBreak 3 3 7).1, none, fxState 0x3f 0xf8 0x40 0x04) ([], none, s') ∧
    At (.flo .double) (.f (.fin false (3 * 2 ^ 51) (-52))) 0x7fffffffdff8#64 s'.g.m := by
  have w : Within fxEnv fxStore 1 (fxState 0x3f 0xf8 0x40 0x04) := { fxWithin with st := by decide }
  have h1 : FCmp.Holds .lt (.fin false (3 * 2 ^ 51) (-52)) (.fin false (5 * 2 ^ 50) (-51)) := (host_cmp .lt _ _).1 (by decide +kernel)
  have hc : Truth fxEnv.Γ fxStore fxLt true := .leaf (z := 1) (.cmpT (x := .fin false (3 * 2 ^ 51) (-52)) (y := .fin false (5 * 2 ^ 50) (-51)) (.var 0) (.var 1) h1)
  obtain ⟨s', r, m⟩ := C84_loops fxEnv fxEnv_ok fxBreak fxStore _ 3 3 7 _ (by decide) (by decide)
    (fun σ _ => ⟨fxLt_ok σ, fun _ => ⟨⟨⟨fxLt_ok σ, fun _ => trivial⟩, fun m _ => fxElse m⟩, fun _ _ _ _ => trivial⟩⟩)
    (.loopB hc (.seqX (.thenT hc (.brk _)) (by decide))) w
  exact ⟨s', r, m.mem 0⟩

example : fxBreak.Placed false := ⟨⟨rfl, trivial⟩, trivial⟩

/-- `for (;; a = b) { if (a < b) continue; break; }` leaves b in a. -/
def fxEver : LStm := .ever (.seq (.ifThen fxLt .cont) .brk) (.assign 0 (.var 1))

example : ∃ s', Steps fxEnv.sym (genL fxEnv.Γ fxEnv.loc fxEnv.stk fxEver 3 3 7).1 ((genL fxEnv.Γ fxEnv.loc fxEnv.stk fxEver 3 3 7).1, none, fxState 0x3f 0xf8 0x40 0x04) ([], none, s') ∧
    At (.flo .double) (.f (.fin false (5 * 2 ^ 50) (-51))) 0x7fffffffdff8#64 s'.g.m := by
  have w : Within fxEnv fxStore 1 (fxState 0x3f 0xf8 0x40 0x04) := { fxWithin with st := by decide }
  have h1 : FCmp.Holds .lt (.fin false (3 * 2 ^ 51) (-52)) (.fin false (5 * 2 ^ 50) (-51)) := (host_cmp .lt _ _).1 (by decide +kernel)
  have hc : Truth fxEnv.Γ fxStore fxLt true := .leaf (z := 1) (.cmpT (x := .fin false (3 * 2 ^ 51) (-52)) (y := .fin false (5 * 2 ^ 50) (-51)) (.var 0) (.var 1) h1)
  obtain ⟨s', r, m⟩ := C84_loops fxEnv fxEnv_ok fxEver fxStore _ 3 3 7 _ (by decide) (by decide)
    (fun σ _ => ⟨⟨⟨fxLt_ok σ, fun _ => trivial⟩, fun _ _ => trivial⟩, fun m _ _ _ => fxThen m⟩)
    (.everT (.seqX (.thenT hc (.cont _)) (by decide)) (by decide) (.assign (.var 1)) (.everB (.seq (.thenF fxEqual) (.brk _)))) w
  exact ⟨s', r, m.mem 0⟩

example : fxEver.Placed false := ⟨⟨rfl, rfl⟩, trivial⟩

/-- `while (a < b) ;` with 1.5 and 2.5 does not end, nor does its code. -/
def fxForever : LStm := .loop fxLt .skip .skip

theorem fxForever_same (σ : Nat → Val) (h : Relation.ReflTransGen (Round fxEnv fxLt .skip .skip) fxStore σ) : σ = fxStore := by
  induction h with
  | refl => rfl
  | tail _ h ih =>
    obtain ⟨_, m, o, _, h1, h2⟩ := h
    cases h1; cases h2; exact ih

example : ¬ ∃ u s1, Steps fxEnv.sym (genL fxEnv.Γ fxEnv.loc fxEnv.stk fxForever 3 3 7).1 ((genL fxEnv.Γ fxEnv.loc fxEnv.stk fxForever 3 3 7).1, none, fxState 0x3f 0xf8 0x40 0x04) ([], u, s1) := by
  have w : Within fxEnv fxStore 1 (fxState 0x3f 0xf8 0x40 0x04) := { fxWithin with st := by decide }
  have h1 : FCmp.Holds .lt (.fin false (3 * 2 ^ 51) (-52)) (.fin false (5 * 2 ^ 50) (-51)) := (host_cmp .lt _ _).1 (by decide +kernel)
  have hc : Truth fxEnv.Γ fxStore fxLt true := .leaf (z := 1) (.cmpT (x := .fin false (3 * 2 ^ 51) (-52)) (y := .fin false (5 * 2 ^ 50) (-51)) (.var 0) (.var 1) h1)
  rw [C84_ends fxEnv fxEnv_ok fxForever fxStore 3 3 7 _ (by decide) (by decide) ⟨trivial, trivial⟩ (fun σ _ => ⟨fxLt_ok σ, fun _ => ⟨trivial, fun _ _ _ _ => trivial⟩⟩)
    (fun σ h => ⟨⟨true, fxForever_same σ h ▸ hc⟩, fun _ => ⟨trivial, fun _ _ _ _ => trivial⟩⟩) w]
  rintro ⟨σ', he⟩
  have var : ∀ n w, Eval fxEnv.Γ fxStore (.var n) w → w = fxStore n := by intro n w h; cases h; rfl
  have cmp : ∀ w, Eval fxEnv.Γ fxStore (.cmp .lt (.var 0) (.var 1)) w → w = .i 1 := by
    intro w h
    cases h with
    | cmpT _ _ _ => rfl
    | cmpF hx hy hno =>
      have ex := var 0 _ hx
      have ey := var 1 _ hy
      injection ex with ex
      injection ey with ey
      subst ex; subst ey
      exact absurd h1 hno
  have only : ∀ v, Truth fxEnv.Γ fxStore fxLt v → v = true := by
    intro v h
    cases h with
    | leaf hz => have := cmp _ hz; injection this with this; subst this; rfl
  have no : ∀ {σ σ' : Nat → Val} {t : LStm} {o : LEnd}, LExec fxEnv σ t o σ' → t = fxForever → σ = fxStore → False := by
    intro σ σ' t o he
    induction he with
    | loopF hz =>
      rintro ⟨⟩ rfl
      exact absurd (only _ hz) (by decide)
    | loopB _ ha _ => rintro ⟨⟩ rfl; cases ha
    | loopT _ ha _ hi _ _ _ ih => rintro ⟨⟩ rfl; cases ha; cases hi; exact ih rfl rfl
    | _ => intro h; cases h
  exact no he rfl rfl

end Slimcc.Props
