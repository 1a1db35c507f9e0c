import Verif.Lemmas.PpMain
set_option autoImplicit false
/-!
Groups that are not closed, and stray lines.
-/
namespace Slimcc.PpL
open Slimcc Slimcc.PP Slimcc.Mac Slimcc.MacL Slimcc.Pp Slimcc.Spec

/-- The file given to the compiler. -/
structure Root (f : FileE) (p : Path) (n : Nat) : Prop where
  incl : f.incl = false
  path : f.path = p
  stop : f.stop = 0
  start : n ≤ f.start

theorem Root.fc {f : FileE} {p : Path} {n : Nat} (h : Root f p n) (tree : Path → Option Items) (items : Items) (rest : List PTok) (hn : items.flat.length + rest.length ≤ n) :
    FC tree f p items rest :=
  ⟨h.path, by rw [h.stop]; omega, by have := h.start; omega, fun hi => by rw [h.incl] at hi; cases hi⟩

/-- The groups that are open. -/
def Stack (st : St) (k : List Bool) : Prop := st.conds.map (·.isElse) = k ∧ ∀ c ∈ st.conds, c.beenActive = true

theorem toBranch_hash {L : Lang} {σ : Name → Option Macro} {ts : List PTok} {e : Bool} (h : ToBranch L σ ts e) (rest : List PTok) : HashNil (ts ++ rest) := by
  cases h with
  | yes l hw _ _ => exact line_hashNil hw _
  | els l hw _ => exact line_hashNil hw _
  | no l body ts e hw _ _ _ _ => rw [List.append_assoc]; exact line_hashNil hw _

theorem toBranch_skip {L : Lang} {σ : Name → Option Macro} {ts : List PTok} {e : Bool} (h : ToBranch L σ ts e) (rest : List PTok) : skipCond 0 (ts ++ rest) = ts ++ rest := by
  cases h with
  | yes l hw hk _ => exact skip_stop hw (.inl hk)
  | els l hw hk => exact skip_stop hw (.inr (.inl hk))
  | no l body ts e hw hk _ _ _ => rw [List.append_assoc]; exact skip_stop hw (.inl hk)

theorem toBranch_goes {E : PEnv} {tree : Path → Option Items} {s : PpState} {ts : List PTok} {e : Bool} (h : ToBranch (langOf E tree) s.macros ts e) :
    ∀ (st : St) (c : Cond) (cs : List Cond) (f : FileE) (fs : Files) (rest : List PTok), Ok tree s st → st.conds = c :: cs → c.isElse = false → c.beenActive = false →
      f.stop = 0 → Bol rest →
      ∃ c' : Cond, c'.isElse = e ∧ (e = false → c'.beenActive = true) ∧ ∀ x, PpR E { st with conds := c' :: cs } [] (f :: fs) rest x → PpR E st [] (f :: fs) (ts ++ rest) x := by
  induction h with
  | yes l hw hk hT =>
    intro st c cs f fs rest hok hc h1 h2 hs hR
    obtain ⟨fu, hd⟩ := elif_step hok hw hk hT hc h1 h2 (f :: fs) (l.toks.length + rest.length) rest hR
    rw [if_pos rfl] at hd
    exact ⟨⟨false, true, none⟩, rfl, fun _ => rfl, fun x hx => line_step hw (by omega) ⟨fu, hd⟩ hx⟩
  | els l hw hk =>
    intro st c cs f fs rest hok hc h1 h2 hs hR
    obtain ⟨fu, hd⟩ := else_step (E := E) (st := st) hw hk hc h1 (f :: fs) (l.toks.length + rest.length) rest hR
    rw [if_neg (by rw [h2]; simp)] at hd
    exact ⟨{ c with guard := none, isElse := true }, rfl, (fun h => by cases h), fun x hx => line_step hw (by omega) ⟨fu, hd⟩ hx⟩
  | no l body ts e hw hk hT hb ht ih =>
    intro st c cs f fs rest hok hc h1 h2 hs hR
    obtain ⟨fu, hd⟩ := elif_step hok hw hk hT hc h1 h2 (f :: fs) (l.toks.length + (body.flat ++ (ts ++ rest)).length) (body.flat ++ (ts ++ rest))
      (items_bol hb (toBranch_hash ht rest).bol)
    rw [if_neg (by simp), skip_items body 0 _ hb (toBranch_hash ht rest), toBranch_skip ht] at hd
    obtain ⟨c', e1, e2, g⟩ := ih { st with conds := ⟨false, false, none⟩ :: cs } _ cs f fs rest (hok.conds _) rfl rfl rfl hs hR
    refine ⟨c', e1, e2, fun x hx => ?_⟩
    rw [List.append_assoc, List.append_assoc]
    exact line_step hw (by omega) ⟨fu, hd⟩ (g x hx)

theorem enters_hash {L : Lang} {σ : Name → Option Macro} {ts : List PTok} {e : Bool} (h : Enters L σ ts e) (rest : List PTok) : HashNil (ts ++ rest) := by
  cases h with
  | yes l hw _ _ => exact line_hashNil hw _
  | no l body ts e hw _ _ _ _ => rw [List.append_assoc]; exact line_hashNil hw _

theorem enters_goes {E : PEnv} {tree : Path → Option Items} {s : PpState} {ts : List PTok} {e : Bool} (h : Enters (langOf E tree) s.macros ts e)
    (st : St) (f : FileE) (fs : Files) (rest : List PTok) (hok : Ok tree s st) (hs : f.stop = 0) (hR : Bol rest) :
    ∃ c' : Cond, c'.isElse = e ∧ (e = false → c'.beenActive = true) ∧ ∀ x, PpR E { st with conds := c' :: st.conds } [] (f :: fs) rest x → PpR E st [] (f :: fs) (ts ++ rest) x := by
  cases h with
  | yes l hw hk hT =>
    obtain ⟨g, _, fu, hd⟩ := if_step hok hw hk hT f fs (l.toks.length + rest.length) rest hR
    rw [if_pos rfl] at hd
    exact ⟨⟨false, true, g⟩, rfl, fun _ => rfl, fun x hx => line_step hw (by omega) ⟨fu, hd⟩ hx⟩
  | no l body ts e hw hk hT hb ht =>
    obtain ⟨g, _, fu, hd⟩ := if_step hok hw hk hT f fs (l.toks.length + (body.flat ++ (ts ++ rest)).length) (body.flat ++ (ts ++ rest))
      (items_bol hb (toBranch_hash ht rest).bol)
    rw [if_neg (by simp), skip_items body 0 _ hb (toBranch_hash ht rest), toBranch_skip ht] at hd
    obtain ⟨c', e1, e2, g'⟩ := toBranch_goes ht { st with conds := ⟨false, false, g⟩ :: st.conds } _ st.conds f fs rest (hok.conds _) rfl rfl rfl hs hR
    refine ⟨c', e1, e2, fun x hx => ?_⟩
    rw [List.append_assoc, List.append_assoc]
    exact line_step hw (by omega) ⟨fu, hd⟩ (g' x hx)

/-- What is known of the open groups. -/
def OpenAs : List Cond → List Bool → Prop
  | [], [] => True
  | c :: cs, e :: k => c.isElse = e ∧ (e = false → c.beenActive = true) ∧ OpenAs cs k
  | _, _ => False

theorem reach_goes {E : PEnv} {tree : Path → Option Items} (hE : EnvOk E tree) {p : Path} {s s' : PpState} {toks o : List PTok} {k : List Bool}
    (h : Reach (langOf E tree) p s toks o s' k) : ∀ (st : St) (f : FileE) (fs : Files) (rest : List PTok), Ok tree s st → st.conds = [] → Root f p (toks.length + rest.length) → Bol rest →
      ∃ st', Ok tree s' st' ∧ OpenAs st'.conds k ∧ ∀ x, PpR E st' [] (f :: fs) rest x → PpR E st [] (f :: fs) (toks ++ rest) (pre o x) := by
  induction h with
  | start =>
    intro st f fs rest hok hc hf hR
    exact ⟨st, hok, by rw [hc]; trivial, fun x hx => by rw [pre_nil]; exact hx⟩
  | enter toks ts o o2 s1 s2 k items e hr hw hsem hent ih =>
    intro st f fs rest hok hc hf hR
    have hh := enters_hash hent rest
    have hb := items_bol (rest := ts ++ rest) hw hh.bol
    obtain ⟨st1, k1, c1, g1⟩ := ih st f fs (items.flat ++ (ts ++ rest)) hok hc ⟨hf.incl, hf.path, hf.stop, by have := hf.start; simp at this ⊢; omega⟩ hb
    obtain ⟨st2, k2, c2, g2⟩ := sem_goes hE hsem st1 f fs (ts ++ rest) k1 hw (hf.fc tree items _ (by simp; omega)) (.of_hash hh)
    obtain ⟨c', e1, e2, g3⟩ := enters_goes hent st2 f fs rest k2 hf.stop hR
    refine ⟨{ st2 with conds := c' :: st2.conds }, k2.conds _, ⟨e1, e2, by rw [c2]; exact c1⟩, fun x hx => ?_⟩
    have := g1 _ (g2 _ (g3 x hx))
    rw [pre_pre] at this
    rw [List.append_assoc, List.append_assoc]
    exact this

/-- An `#elif`, `#else` or `#endif` outside of groups is rejected. -/
theorem stray_fail {E : PEnv} {st : St} {files : Files} {l : Line} {R : List PTok} (hw : l.WF) (hk : l.Is elifWords ∨ l.Is ["else"] ∨ l.Is ["endif"]) (hc : st.conds = []) :
    PpR E st [] files (l.toks ++ R) .fail := by
  refine line_fail hw (fun fl n => ⟨0, ?_⟩)
  rw [is_three, is_one, is_one, w_elif, w_elifdef, w_elifndef, w_else, w_endif] at hk
  rcases hk with (hk | hk | hk) | hk | hk
  · rw [dir_elif _ _ _ _ _ _ _ hk]; unfold elifDir; rw [hc]; rfl
  · rw [dir_elifdef _ _ _ _ _ _ _ hk]; unfold elifDir; rw [hc]; rfl
  · rw [dir_elifndef _ _ _ _ _ _ _ hk]; unfold elifDir; rw [hc]; rfl
  · rw [dir_else _ _ _ _ _ _ _ hk, hc]
  · unfold directive; dsimp only; rw [hk]
    show (match st.conds with | [] => _ | c :: cs => _) = _
    rw [hc]

/-- An `#elif` or `#else` after `#else` is rejected. -/
theorem after_else_fail {E : PEnv} {st : St} {files : Files} {l : Line} {R : List PTok} (hw : l.WF) (hk : l.Is elifWords ∨ l.Is ["else"]) {c : Cond} {cs : List Cond}
    (hc : st.conds = c :: cs) (h1 : c.isElse = true) : PpR E st [] files (l.toks ++ R) .fail := by
  refine line_fail hw (fun fl n => ⟨0, ?_⟩)
  rw [is_three, is_one, w_elif, w_elifdef, w_elifndef, w_else] at hk
  rcases hk with (hk | hk | hk) | hk
  · rw [dir_elif _ _ _ _ _ _ _ hk]; unfold elifDir; rw [hc]; dsimp only; rw [if_pos h1]; rfl
  · rw [dir_elifdef _ _ _ _ _ _ _ hk]; unfold elifDir; rw [hc]; dsimp only; rw [if_pos h1]; rfl
  · rw [dir_elifndef _ _ _ _ _ _ _ hk]; unfold elifDir; rw [hc]; dsimp only; rw [if_pos h1]; rfl
  · rw [dir_else _ _ _ _ _ _ _ hk, hc]; dsimp only; rw [if_pos h1]

theorem pp_end (E : PEnv) (st : St) (files : Files) : PpR E st [] files [] (.done ([], st)) := ⟨(by intro h; cases h), 1, rfl⟩

/-- The whole run. -/
theorem preprocess_of {E : PEnv} {tb : Table} {root : Path} {toks : List PTok} {x : Run (List PTok × St)}
    (h : PpR E { macros := tb, conds := [], once := [], guards := [] } [] [{ path := root, start := toks.length, stop := 0, incl := false }] toks x) :
    ∃ f, ∀ k, preprocess E (f + k) tb root toks = x >>= fun r => if r.2.conds.isEmpty then .done r else .fail := by
  obtain ⟨hn, f, h⟩ := h
  refine ⟨f, fun k => ?_⟩
  unfold preprocess
  rw [PpR.at hn h k]

/-- The first state. -/
theorem ok_start {tree : Path → Option Items} {tb : Table} (hva : ∀ n m, tb.get n = some m → m.vaArg = true → m.params ≠ []) :
    Ok tree ⟨tb.get, []⟩ { macros := tb, conds := [], once := [], guards := [] } :=
  ⟨rfl, rfl, hva, fun _ _ h => by cases h⟩

theorem root_start (root : Path) (n : Nat) : Root { path := root, start := n, stop := 0, incl := false } root n := ⟨rfl, rfl, rfl, Nat.le_refl _⟩

end Slimcc.PpL
