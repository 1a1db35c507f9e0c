import Verif.Model.Directive
import Verif.Lemmas.MacroMono
set_option autoImplicit false
/-!
More fuel does not change the outcome of the preprocessor.
-/
namespace Slimcc.PpL
open Slimcc Slimcc.PP Slimcc.Mac Slimcc.MacL Slimcc.Pp

theorem readConst_mono1 (E : PEnv) (tb : Macros) : ∀ (f : Nat) (locks : Locks) (ts : List PTok), RunLe Eq (readConst E tb f locks ts) (readConst E tb (f + 1) locks ts)
  | 0, locks, ts => by rw [readConst]; exact .more _
  | f + 1, locks, [] => by rw [readConst, readConst]; exact RunLe.refl _
  | f + 1, locks, t :: r => by
    rw [readConst, readConst]
    refine (expandMacro_mono _ (fun o a => expand_mono1 _ f o [] a) [] locks t r).bind ?_
    rintro s _ rfl
    cases s with
    | inl t' =>
      dsimp only
      split
      · refine (RunLe.refl _).bind ?_
        rintro ⟨b, rest⟩ _ rfl
        refine (readConst_mono1 E tb f _ _).bind ?_
        rintro s _ rfl
        exact RunLe.refl _
      · refine (readConst_mono1 E tb f _ _).bind ?_
        rintro s _ rfl
        exact RunLe.refl _
    | inr s => exact readConst_mono1 E tb f _ _

theorem evalConst_mono1 (E : PEnv) (tb : Macros) (f : Nat) (ts : List PTok) : RunLe Eq (evalConst E tb f ts) (evalConst E tb (f + 1) ts) := by
  unfold evalConst
  refine (readConst_mono1 E tb f _ _).bind ?_
  rintro s _ rfl
  exact RunLe.refl _

theorem evalConst_mono (E : PEnv) (tb : Macros) (f : Nat) (ts : List PTok) : ∀ k, RunLe Eq (evalConst E tb f ts) (evalConst E tb (f + k) ts)
  | 0 => RunLe.refl _
  | k + 1 => (evalConst_mono E tb f ts k).trans (evalConst_mono1 E tb (f + k) ts)

theorem elifDir_mono (st : St) (ts : List PTok) (a b : Unit → Run (Bool × List PTok)) (h : RunLe Eq (a ()) (b ())) : RunLe Eq (elifDir st ts a) (elifDir st ts b) := by
  unfold elifDir
  split
  · exact RunLe.refl _
  · split
    · exact RunLe.refl _
    · split
      · exact RunLe.refl _
      · refine h.bind ?_
        rintro s _ rfl
        exact RunLe.refl _

theorem RunLe.ite {α : Type} {c : Prop} [Decidable c] {a b x y : Run α} (h1 : RunLe Eq a x) (h2 : RunLe Eq b y) :
    RunLe Eq (if c then a else b) (if c then x else y) := by
  by_cases h : c
  · rw [if_pos h, if_pos h]; exact h1
  · rw [if_neg h, if_neg h]; exact h2

theorem directive_mono1 (E : PEnv) (f : Nat) (st : St) (files : Files) (n : Nat) (ts : List PTok) :
    RunLe Eq (directive E f st files n ts) (directive E (f + 1) st files n ts) := by
  unfold directive
  cases ts with
  | nil => exact RunLe.refl _
  | cons t r =>
    dsimp only
    refine RunLe.ite (RunLe.refl _) (RunLe.ite (RunLe.refl _) (RunLe.ite (RunLe.refl _) (RunLe.ite (RunLe.refl _) (RunLe.ite ?_ (RunLe.ite (RunLe.refl _)
      (RunLe.ite (RunLe.refl _) (RunLe.ite ?_ (RunLe.refl _))))))))
    · refine (evalConst_mono1 _ _ _ _).bind ?_
      rintro s _ rfl
      exact RunLe.refl _
    · refine (elifDir_mono _ _ _ _ ?_).bind ?_
      · refine (evalConst_mono1 _ _ _ _).bind ?_
        rintro s _ rfl
        exact RunLe.refl _
      · rintro s _ rfl
        exact RunLe.refl _

theorem pp_mono1 (E : PEnv) : ∀ (f : Nat) (st : St) (locks : Locks) (files : Files) (ts : List PTok), RunLe Eq (pp E f st locks files ts) (pp E (f + 1) st locks files ts)
  | 0, st, locks, files, ts => by rw [pp]; exact .more _
  | f + 1, st, locks, files, [] => by rw [pp, pp]; exact RunLe.refl _
  | f + 1, st, locks, files, t :: r => by
    rw [pp, pp]
    refine (expandMacro_mono _ (fun o a => expand_mono1 _ f o [] a) [] locks t r).bind ?_
    rintro s _ rfl
    cases s with
    | inl t' =>
      dsimp only
      split
      · refine (directive_mono1 _ _ _ _ _ _).bind ?_
        rintro ⟨s, fs, ts⟩ _ rfl
        exact pp_mono1 E f _ _ _ _
      · refine (pp_mono1 E f _ _ _ _).bind ?_
        rintro s _ rfl
        exact RunLe.refl _
    | inr s => exact pp_mono1 E f _ _ _ _

theorem pp_mono (E : PEnv) (f : Nat) (st : St) (locks : Locks) (files : Files) (ts : List PTok) : ∀ k, RunLe Eq (pp E f st locks files ts) (pp E (f + k) st locks files ts)
  | 0 => RunLe.refl _
  | k + 1 => (pp_mono E f st locks files ts k).trans (pp_mono1 E (f + k) st locks files ts)

theorem directive_mono (E : PEnv) (f : Nat) (st : St) (files : Files) (n : Nat) (ts : List PTok) : ∀ k, RunLe Eq (directive E f st files n ts) (directive E (f + k) st files n ts)
  | 0 => RunLe.refl _
  | k + 1 => (directive_mono E f st files n ts k).trans (directive_mono1 E (f + k) st files n ts)

/-- The preprocessor ends with this outcome. -/
def PpR (E : PEnv) (st : St) (locks : Locks) (files : Files) (ts : List PTok) (x : Run (List PTok × St)) : Prop :=
  x ≠ .more ∧ ∃ f, pp E f st locks files ts = x

/-- An outcome with tokens in front. -/
def pre (o : List PTok) (x : Run (List PTok × St)) : Run (List PTok × St) := do
  let (o2, s) ← x
  .done (o ++ o2, s)

theorem pre_nil (x : Run (List PTok × St)) : pre [] x = x := by cases x <;> rfl
theorem pre_pre (a b : List PTok) (x : Run (List PTok × St)) : pre a (pre b x) = pre (a ++ b) x := by
  cases x with
  | done x => show Run.done (a ++ (b ++ x.1), x.2) = Run.done (a ++ b ++ x.1, x.2); rw [List.append_assoc]
  | _ => rfl
theorem pre_cons (t : PTok) (a : List PTok) (x : Run (List PTok × St)) : (do let (o, s) ← pre a x; .done (t :: o, s)) = pre (t :: a) x := by
  cases x <;> rfl
theorem pre_ne {o : List PTok} {x : Run (List PTok × St)} (h : x ≠ .more) : pre o x ≠ .more := by
  cases x with
  | more => exact absurd rfl h
  | _ => intro h; cases h

theorem ne_more {α : Type} {x : Run α} {a : α} (h : x = .done a) : x ≠ .more := by rw [h]; intro h; cases h

theorem PpR.at {E : PEnv} {st : St} {locks : Locks} {files : Files} {ts : List PTok} {x : Run (List PTok × St)} {f : Nat} (hx : x ≠ .more) (h : pp E f st locks files ts = x) (k : Nat) :
    pp E (f + k) st locks files ts = x := by
  rw [← (pp_mono E f st locks files ts k).eq (by rw [h]; exact hx)]; exact h

theorem PpR.unique {E : PEnv} {st : St} {locks : Locks} {files : Files} {ts : List PTok} {x y : Run (List PTok × St)} (h1 : PpR E st locks files ts x) (h2 : PpR E st locks files ts y) :
    x = y := by
  obtain ⟨n1, f, h1⟩ := h1
  obtain ⟨n2, g, h2⟩ := h2
  have a := PpR.at n1 h1 g
  have b := PpR.at n2 h2 f
  rw [Nat.add_comm, b] at a
  exact a.symm

/-- A directive outside of expansions. -/
theorem PpR.directive {E : PEnv} {st st1 : St} {files files1 : Files} {h : PTok} {r ts : List PTok} {x : Run (List PTok × St)} (hh : isHash h = true) (hk : h.kind ≠ .ident)
    (hd : ∃ f, Pp.directive E f st (popFiles (r.length + 1) files) (r.length + 1) r = .done (st1, files1, ts)) (hr : PpR E st1 [] files1 ts x) :
    PpR E st [] files (h :: r) x := by
  obtain ⟨f, hd⟩ := hd
  obtain ⟨hn, g, hr⟩ := hr
  refine ⟨hn, f + g + 1, ?_⟩
  rw [pp]
  have hx : ∀ ex, expandMacro (E.mac st.macros.get) ex [] [] h r = .done (.inl h) := by
    intro ex
    unfold expandMacro
    split
    · rfl
    · have : (E.mac st.macros.get).look h = none := by unfold Mac.Env.look; rw [if_neg hk]
      rw [this]
  rw [hx, Run.bind_done]
  dsimp only
  rw [hh]
  show ((Pp.directive E (f + g) st (popFiles (r.length + 1) files) (r.length + 1) r) >>= _) = _
  have e1 : Pp.directive E (f + g) st (popFiles (r.length + 1) files) (r.length + 1) r = .done (st1, files1, ts) := by
    rw [← (directive_mono E f st _ _ r g).eq (ne_more hd)]; exact hd
  rw [e1, Run.bind_done]
  dsimp only
  rw [Nat.add_comm]
  exact PpR.at hn hr f

/-- A directive that is rejected. -/
theorem PpR.directive_fail {E : PEnv} {st : St} {files : Files} {h : PTok} {r : List PTok} (hh : isHash h = true) (hk : h.kind ≠ .ident)
    (hd : ∃ f, Pp.directive E f st (popFiles (r.length + 1) files) (r.length + 1) r = .fail) : PpR E st [] files (h :: r) .fail := by
  obtain ⟨f, hd⟩ := hd
  refine ⟨(by intro h; cases h), f + 1, ?_⟩
  rw [pp]
  have hx : ∀ ex, expandMacro (E.mac st.macros.get) ex [] [] h r = .done (.inl h) := by
    intro ex
    unfold expandMacro
    split
    · rfl
    · have : (E.mac st.macros.get).look h = none := by unfold Mac.Env.look; rw [if_neg hk]
      rw [this]
  rw [hx, Run.bind_done]
  dsimp only
  rw [hh]
  show ((Pp.directive E f st (popFiles (r.length + 1) files) (r.length + 1) r) >>= _) = _
  rw [hd]; rfl

theorem popFiles_idem (fs : Files) (n m : Nat) (h : m ≤ n) : popFiles m (popFiles n fs) = popFiles m fs := by
  induction fs with
  | nil => rfl
  | cons f fs ih =>
    rw [popFiles]
    split
    · rename_i hn
      rw [ih, popFiles, if_pos (by omega)]
    · rfl

theorem PpR.files {E : PEnv} {st : St} {files files' : Files} {ts : List PTok} {x : Run (List PTok × St)} (he : popFiles ts.length files = popFiles ts.length files') (h : PpR E st [] files ts x) :
    PpR E st [] files' ts x := by
  obtain ⟨hn, f, h⟩ := h
  refine ⟨hn, f, ?_⟩
  rw [← h]
  cases f with
  | zero => rfl
  | succ f =>
    cases ts with
    | nil => rw [pp, pp]
    | cons t r =>
      rw [pp, pp]
      simp only [List.isEmpty_nil, if_true]
      rw [show popFiles (r.length + 1) files' = popFiles (r.length + 1) files from he.symm]

end Slimcc.PpL
