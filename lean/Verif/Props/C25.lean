import Verif.Props.C24
set_option autoImplicit false
/-!
C25 Include guards and #pragma once only skip what would be empty.
-/
namespace Slimcc.Props
open Slimcc Slimcc.PP Slimcc.Mac Slimcc.Pp Slimcc.Spec Slimcc.PpL

/-- Whenever the preprocessor has recorded a guard for a file, the file is one `#ifndef` group on that name, with no other
branch and nothing before or after it. -/
theorem C25_recorded_guard (E : PEnv) (tree : Path → Option Items) (hE : EnvOk E tree) (tb : Table) (hva : ∀ n m, tb.get n = some m → m.vaArg = true → m.params ≠ [])
    (root : Path) (items : Items) (hw : items.WF) (o : List PTok) (s' : PpState) (h : Sem (langOf E tree) root ⟨tb.get, []⟩ items o s') :
    ∃ f st, (∀ k, preprocess E (f + k) tb root items.flat = .done (o, st)) ∧ ∀ p g, (p, g) ∈ st.guards → IsGuarded tree p g := by
  obtain ⟨st', k, c, g⟩ := sem_goes hE h { macros := tb, conds := [], once := [], guards := [] } { path := root, start := items.flat.length, stop := 0, incl := false } [] []
    (ok_start hva) hw ((root_start root _).fc tree items [] (by simp)) (.of_hash (.inl rfl))
  have hx := g _ (pp_end E st' _)
  rw [List.append_nil] at hx
  obtain ⟨f, hf⟩ := preprocess_of hx
  refine ⟨f, st', fun k => ?_, k.guards⟩
  rw [hf k]
  show (if st'.conds.isEmpty = true then Run.done (o ++ [], st') else _) = _
  rw [c, List.append_nil]; rfl

/-- Such a file, processed while the name is defined, yields no tokens and changes nothing; so leaving it out is right. -/
theorem C25_guarded_file_is_empty (L : Lang) (p : Path) (g : Name) (items : Items) (ht : L.tree p = some items) (hg : IsGuarded L.tree p g) (s : PpState)
    (hd : (s.macros g).isSome = true) : Sem L p s items [] s ∧ ∀ o s', Sem L p s items o s' → o = [] ∧ s' = s := by
  obtain ⟨l, body, last, t, ex, h1, h2, h3, h4, h5⟩ := hg
  rw [ht] at h1
  cases h1
  rw [← h5] at hd
  constructor
  · refine Sem.no p s s s l body _ _ [] [] ?_ (.endif _ _ _) (.nil _ _)
    have := Truth.ndefd (L := L) (σ := s.macros) (l := l) t ex ⟨"ifndef", by simp, h2⟩ h3 h4
    rw [isNone_not, hd] at this
    exact this
  · intro o s' h
    cases h with
    | yes _ _ s2 _ _ _ _ _ o1 o3 hT _ _ =>
      exfalso
      generalize hbt : true = b at hT
      rw [w_ifndef] at h2
      cases hT with
      | expr b hk _ => rw [is_two, h2] at hk; revert hk; decide
      | defd t ex hk _ _ => rw [is_two, h2] at hk; revert hk; decide
      | ndefd t ex hk ha _ =>
        rw [h3] at ha
        cases ha
        rw [isNone_not, hd] at hbt
        cases hbt
    | no _ _ s2 _ _ _ _ _ o1 o3 _ ha hn => cases ha; cases hn; exact ⟨rfl, rfl⟩

/-- `Spec.Sem` knows of no guards: it enters every file that is not marked. `C24_meaning` says that the preprocessor agrees with it, so the guards make
no difference. Stated for one `#include`: if the tokens of the file would be `items`, then processing the line has the effect of processing them, whatever
guards have been recorded. -/
theorem C25_guards_make_no_difference (E : PEnv) (tree : Path → Option Items) (hE : EnvOk E tree) (s s' : PpState) (st st2 : St) (h1 : Ok tree s st) (h2 : Ok tree s st2)
    (hc1 : st.conds = []) (hc2 : st2.conds = []) (root : Path) (items : Items) (hw : items.WF) (o : List PTok) (h : Sem (langOf E tree) root s items o s') :
    ∃ sf sf2, sf.macros.get = sf2.macros.get ∧ sf.once = sf2.once ∧
      PpR E st [] [{ path := root, start := items.flat.length, stop := 0, incl := false }] items.flat (.done (o, sf)) ∧
      PpR E st2 [] [{ path := root, start := items.flat.length, stop := 0, incl := false }] items.flat (.done (o, sf2)) := by
  obtain ⟨a, ka, _, ga⟩ := sem_goes hE h st { path := root, start := items.flat.length, stop := 0, incl := false } [] []
    h1 hw ((root_start root _).fc tree items [] (by simp)) (.of_hash (.inl rfl))
  obtain ⟨b, kb, _, gb⟩ := sem_goes hE h st2 { path := root, start := items.flat.length, stop := 0, incl := false } [] []
    h2 hw ((root_start root _).fc tree items [] (by simp)) (.of_hash (.inl rfl))
  have hx := ga _ (pp_end E a _)
  have hy := gb _ (pp_end E b _)
  rw [List.append_nil] at hx hy
  refine ⟨a, b, ka.mac.trans kb.mac.symm, ka.once.trans kb.once.symm, ?_, ?_⟩
  · have e : pre o (Run.done ([], a)) = .done (o, a) := by show Run.done (o ++ [], a) = _; rw [List.append_nil]
    rw [← e]; exact hx
  · have e : pre o (Run.done ([], b)) = .done (o, b) := by show Run.done (o ++ [], b) = _; rw [List.append_nil]
    rw [← e]; exact hy

theorem elifDir_once {st st' : St} {ts ts' : List PTok} {t : Unit → Run (Bool × List PTok)} (h : elifDir st ts t = .done (st', ts')) : st'.once = st.once := by
  unfold elifDir at h
  cases hc : st.conds with
  | nil => rw [hc] at h; cases h
  | cons c cs =>
    rw [hc] at h
    dsimp only at h
    split at h
    · cases h
    · split at h
      · cases h; rfl
      · obtain ⟨⟨a, r⟩, _, h2⟩ := (MacL.bind_done_iff _ _ _).1 h
        dsimp only at h2
        split at h2 <;> (cases h2; rfl)

/-- No directive enters a file that has been marked with `#pragma once`, and none removes the mark. With well-formed lines or without. -/
theorem C25_once (E : PEnv) (f : Nat) (st st' : St) (files files' : Files) (n : Nat) (ts ts' : List PTok) (h : directive E f st files n ts = .done (st', files', ts')) :
    (∀ p ∈ st.once, p ∈ st'.once) ∧ (files' = files ∨ ∃ fe, files' = fe :: files ∧ fe.path ∉ st.once) := by
  cases ts with
  | nil => cases h; exact ⟨fun _ h => h, .inl rfl⟩
  | cons t r =>
    have key : ∀ (P : Prop) [Decidable P] (a b : Run (St × Files × List PTok)), (if P then a else b) = .done (st', files', ts') → (P ∧ a = .done (st', files', ts')) ∨ (¬ P ∧ b = .done (st', files', ts')) := by
      intro P _ a b h
      by_cases hp : P
      · rw [if_pos hp] at h; exact .inl ⟨hp, h⟩
      · rw [if_neg hp] at h; exact .inr ⟨hp, h⟩
    have same : st'.once = st.once → files' = files → (∀ p ∈ st.once, p ∈ st'.once) ∧ (files' = files ∨ ∃ fe, files' = fe :: files ∧ fe.path ∉ st.once) :=
      fun e1 e2 => ⟨fun p hp => by rw [e1]; exact hp, .inl e2⟩
    unfold directive at h
    dsimp only at h
    rcases key _ _ _ h with ⟨_, h⟩ | ⟨_, h⟩
    · cases h
    rcases key _ _ _ h with ⟨_, h⟩ | ⟨_, h⟩
    · obtain ⟨p, _, h2⟩ := (MacL.bind_done_iff _ _ _).1 h
      obtain ⟨⟨fs, ts2⟩, h3, h4⟩ := (MacL.bind_done_iff _ _ _).1 h2
      cases h4
      refine ⟨fun _ h => h, ?_⟩
      unfold includeFile at h3
      by_cases ho : st.once.contains p = true
      · rw [if_pos ho] at h3; cases h3; exact .inl rfl
      · rw [if_neg ho] at h3
        have key2 : ∀ (P : Prop) [Decidable P] (a b : Run (Files × List PTok)) (y : Files × List PTok), (if P then a else b) = .done y → (P ∧ a = .done y) ∨ (¬ P ∧ b = .done y) := by
          intro P _ a b y h
          by_cases hp : P
          · rw [if_pos hp] at h; exact .inl ⟨hp, h⟩
          · rw [if_neg hp] at h; exact .inr ⟨hp, h⟩
        rcases key2 _ _ _ _ h3 with ⟨_, h3⟩ | ⟨_, h3⟩
        · cases h3; exact .inl rfl
        · cases hfl : E.file p with
          | none => rw [hfl] at h3; cases h3
          | some l =>
            rw [hfl] at h3
            cases l with
            | nil => cases h3; exact .inl rfl
            | cons a b => cases h3; exact .inr ⟨_, rfl, by simpa using ho⟩
    rcases key _ _ _ h with ⟨_, h⟩ | ⟨_, h⟩
    · obtain ⟨⟨tb, r2⟩, _, h2⟩ := (MacL.bind_done_iff _ _ _).1 h
      cases h2; exact same rfl rfl
    rcases key _ _ _ h with ⟨_, h⟩ | ⟨_, h⟩
    · cases r with
      | nil => cases h
      | cons x r1 =>
        rcases key _ _ _ h with ⟨_, h⟩ | ⟨_, h⟩
        · cases h
        · cases h; exact same rfl rfl
    rcases key _ _ _ h with ⟨_, h⟩ | ⟨_, h⟩
    · obtain ⟨b, _, h2⟩ := (MacL.bind_done_iff _ _ _).1 h
      cases h2; exact same rfl rfl
    rcases key _ _ _ h with ⟨_, h⟩ | ⟨_, h⟩
    · cases h; exact same rfl rfl
    rcases key _ _ _ h with ⟨_, h⟩ | ⟨_, h⟩
    · cases h; exact same rfl rfl
    rcases key _ _ _ h with ⟨_, h⟩ | ⟨_, h⟩
    · obtain ⟨⟨s2, r2⟩, h1, h2⟩ := (MacL.bind_done_iff _ _ _).1 h
      cases h2; exact same (elifDir_once h1) rfl
    rcases key _ _ _ h with ⟨_, h⟩ | ⟨_, h⟩
    · obtain ⟨⟨s2, r2⟩, h1, h2⟩ := (MacL.bind_done_iff _ _ _).1 h
      cases h2; exact same (elifDir_once h1) rfl
    rcases key _ _ _ h with ⟨_, h⟩ | ⟨_, h⟩
    · obtain ⟨⟨s2, r2⟩, h1, h2⟩ := (MacL.bind_done_iff _ _ _).1 h
      cases h2; exact same (elifDir_once h1) rfl
    rcases key _ _ _ h with ⟨_, h⟩ | ⟨_, h⟩
    · cases hc : st.conds with
      | nil => rw [hc] at h; cases h
      | cons c cs =>
        rw [hc] at h
        rcases key _ _ _ h with ⟨_, h⟩ | ⟨_, h⟩
        · cases h
        · cases h; exact same rfl rfl
    rcases key _ _ _ h with ⟨_, h⟩ | ⟨_, h⟩
    · cases hc : st.conds with
      | nil => rw [hc] at h; cases h
      | cons c cs =>
        rw [hc] at h
        cases h
        refine same ?_ rfl
        split
        · split <;> rfl
        · rfl
    rcases key _ _ _ h with ⟨_, h⟩ | ⟨_, h⟩
    · rcases key _ _ _ h with ⟨_, h⟩ | ⟨_, h⟩
      · cases h; exact same rfl rfl
      · cases h
    rcases key _ _ _ h with ⟨_, h⟩ | ⟨_, h⟩
    · rcases key _ _ _ h with ⟨_, h⟩ | ⟨_, h⟩
      · cases h; exact same rfl rfl
      · cases h
    rcases key _ _ _ h with ⟨_, h⟩ | ⟨_, h⟩
    · cases h; exact ⟨fun p hp => List.mem_cons_of_mem _ hp, .inl rfl⟩
    rcases key _ _ _ h with ⟨_, h⟩ | ⟨_, h⟩
    · cases h; exact same rfl rfl
    rcases key _ _ _ h with ⟨_, h⟩ | ⟨_, h⟩
    · cases h
    rcases key _ _ _ h with ⟨_, h⟩ | ⟨_, h⟩
    · cases h; exact same rfl rfl
    rcases key _ _ _ h with ⟨_, h⟩ | ⟨_, h⟩
    · cases h; exact same rfl rfl
    · cases h

/-! ### Examples -/

/-- `#ifndef G`, `#define G`, `x`, `#endif`. -/
def guardedFile : Items :=
  .group (ppL "ifndef" [ppI "G"]) (.dir (ppL "define" [ppI "G"]) (.text (ppText "x") .nil)) (.endif (ppL "endif" [])) .nil
/-- `#pragma once`, `y`. -/
def onceFile : Items := .dir (ppL "pragma" [ppI "once"]) (.text (ppText "y") .nil)

/-- Files are named by one token; `g` and `p` exist. -/
def ppTreeOf (p : Path) : Option Items := if p = word "g" then some guardedFile else if p = word "p" then some onceFile else none
def ppEnvFiles : PEnv := { ppEnv with
  resolve := fun _ _ _ ts => match ts with | [t] => .done t.text | _ => .fail
  file := fun p => (ppTreeOf p).map Items.flat }
def ppIncl (s : String) : List PTok := (ppL "include" [ppI s]).toks

/-- Both are left out the second time; the guard of `g` has been recorded. -/
example : ∃ st, preprocess ppEnvFiles 40 [] [] (ppIncl "g" ++ ppIncl "g" ++ ppIncl "p" ++ ppIncl "p") = .done (ppText "x" ++ ppText "y", st) ∧
    st.guards = [(word "g", word "G")] ∧ st.once = [word "p"] := ⟨_, rfl, rfl, rfl⟩

/-- If the name is no longer defined, the file with the guard is read again. -/
example : ∃ st, preprocess ppEnvFiles 40 [] [] (ppIncl "g" ++ (ppL "undef" [ppI "G"]).toks ++ ppIncl "g") = .done (ppText "x" ++ ppText "x", st) := ⟨_, rfl⟩

example : IsGuarded ppTreeOf (word "g") (word "G") := ⟨_, _, _, _, _, rfl, rfl, rfl, rfl, rfl⟩

end Slimcc.Props
